# Design: a formal model of google-research/r_u_sure in Lean 4

## Layout
* `lean/Verif/Model/*.lean` - executable model; every definition cites the file and lines of `/repo` it models, and says where it simplifies.
* `lean/Verif/Spec/*.lean` - small specifications, independent of the model's helpers (paths, minima, text, balancedness ...).
* `lean/Verif/Lemmas/*.lean` - proofs of helper lemmas.
* `lean/Verif/Props/*.lean` - the property theorems (`C01_...`), each followed by a concrete non-trivial instance of its hypotheses.
* `properties.jsonl`, `MANIFEST.json`, `seeded/LOG.jsonl` - claims, their status, and the log of mutation experiments.

## Modelling conventions
* Python values become inductive types, lists, `Nat`/`Int`, `Option`; exceptions become `Except`/`Option` values.
* Mutation is returned state; loops are folds or structural recursion.
* Strings are lists of characters.
* Costs (floats with +inf) are idealised as exact extended rationals `WithTop Rat`; float64 rounding is modelled for tables, bounds, extraction and whole systems in C67, C68, C69 and C72. NaN is outside the model.
* Dictionaries are association lists / total functions; hash order is only modelled where it is observable.

## Trusted base
* Lean 4.33.0's kernel, which has checked every theorem. Axioms: at most `propext`, `Classical.choice`, `Quot.sound`, listed per theorem at the end of this file. No axioms of our own, no `sorry`, no `native_decide` or `bv_decide`.
* That the definitions under `Model` do what the cited lines of Python do. This was checked by reading only; the code was never run.
* That the definitions under `Spec` say what the English statements say.
* The run time: Python's semantics of the constructs used; that code compiled by Numba does what the same code does in Python, except where the two versions of a function differ in the source (C24, C25, C79); unbounded memory and recursion depth; integers without overflow.
* Idealised: costs and coordinates are exact rationals (with infinity) unless a property says float64 (C67, C68, C69, C72); NaN does not occur. Regular expressions are matched by the first match in order of preference (Model/Regex).
* Parameters of the model, about which only stated hypotheses are used: Unicode tables, hash values, the exponential and sigmoid functions, the text of numbers, `repr` of states and edges, style sheets, clocks and time-outs.
* Not modelled: Numba types and compilation, the loading of notebooks and of their examples, JavaScript and fonts, logging, caching of compiled functions, subclasses that are not in the repository. The table below lists what is left out per file.

## Plan per property

* **C01 Packing a node sequence loses nothing** - Model `pack`/`unpack` over an explicit storage record (per-category arrays, preorder array, parent table); prove the round trip by mutual induction on trees with a 'storage extends' invariant.
* **C02 Preorder indices identify nodes** - Invariant of the packing fold: preorder array position = preorder index; traversal = independent preorder listing of the tree.
* **C03 Path lookups and preorder indices are inverse** - Model both lookups on the packed storage; prove they are inverse by induction on paths.
* **C04 Packed storage reports the same text and depth as the tree** - Induction on trees over the packed storage; depth = independent nesting-depth function.
* **C05 In-order traversal is a faithful bracketed linearisation** - Model the explicit-stack traversal with fuel-free measure; prove equal to the recursive bracketed linearisation.
* **C06 Tree transformations never change the program text** - Structural induction on trees, one theorem per transform.
* **C07 Stripping decision nodes undoes decision insertion** - Structural induction; commuting variants for both insertion orders.
* **C08 Collapsing singleton groups is reversible** - Give an explicit inverse (expander of tuple match types); prove left inverse; injectivity follows.
* **C09 Truncating the context removes exactly the first n characters** - Model generator state as (past, seen) threaded through recursion; induction on trees.
* **C10 Region options allow bracketing any run of siblings** - Independent specification of the sibling list by relation; structural induction.
* **C11 Early-exit markers are placed after every token and group** - Independent specification by relation; structural induction.
* **C12 Walking a tree yields each node with its true path** - Path resolution function on trees as the specification; induction.
* **C13 Token log-probabilities are aligned without loss** - Model helper stack and spans; specification via character-level weights; induction on spans.
* **C14 Subtokenisation is lossless** - Model the FSM as a left fold; invariants: emitted ++ pending = consumed.
* **C15 Error correction always yields a balanced token stream** - Model both loops on a stack of openers; balanced streams as an inductive grammar; a stack machine in between, equivalent to the grammar and simulated by both loops.
* **C16 Bracket matching gives a tree that covers the tokens** - Induction over the grammar of balanced streams: the matcher appends trees whose spans tile; strict mode through the stack machine.
* **C17 Splitting a parse keeps its leaves** - Induction on parse trees; leaf sequence and removal of grouping nodes as spec; moving groups is compared with an inductive relation that joins neighbours.
* **C18 Python indent/dedent desugaring is balanced and only inserts markers** - The slices of lines are computed from the exact parse forest; the loop is compared with a recursive description of marked lines, and nesting, depth and neighbours are proved of that.
* **C19 Parsing preserves the program text** - Induction over parse trees with range arithmetic for arbitrary trees; for whole programs the tree described by C58 is followed from the root to its leaves, which are the tokens in order, so that the parts of the result are the parts each token should become.
* **C20 The token codec is injective** - Regular expressions are modelled with the list of all matches in order of preference. Every token type is shown to be a function of the token text; the codec after any history is computed exactly; the double registration of the empty text and the typing of C strings are findings.
* **C21 Inferred indentation divides every indent** - The token types and raw texts are those C58 describes, so that the lengths collected by the code are the widths of the runs of spaces after indents; then list reasoning over the candidates.
* **C22 The incremental DAG builder only accepts topologically ordered edges** - Invariant over add histories; witness for the self-loop hole.
* **C23 Pruning to reachable states preserves every solution** - Reachability folds = path existence under topological order; path-set equality.
* **C24 Compiled and interpreted pruning agree** - Same reachability lemmas; list equality of the two filters.
* **C25 Rewriting states as integers is an isomorphism on the pruned DAG** - Hash table invariant under no-recreation for the full claim; without any hypothesis on the hash, an invariant that every number is labelled with the state it was created for and is reachable from number 0, which gives soundness; witnesses for duplicate ids and for an evicted final state.
* **C26 Packing a DAG preserves its solutions** - Simulation in both directions between original and tagged DAG.
* **C27 Every packed path assigns every variable exactly once in order** - Tag increases exactly by one at each assigning edge; induction on paths.
* **C28 Packing rejects ordering violations** - Characterise the largest-possible-before table as max key over reaching paths.
* **C29 Incremental shortest-path tables are always right** - Invariant 'valid tags => table = min over paths' preserved by every operation; DP correctness by topological induction.
* **C30 Min-marginals are exact** - Path decomposition at the unique assigning edge.
* **C31 All ways of computing the minimal cost agree** - From C29/C30.
* **C32 Extracted path is optimal** - Greedy walk invariant: remaining cost = suffix table.
* **C33 Constrained best path obeys its constraints** - C32 with infinite penalties.
* **C34 Scaling costs scales every solution** - Induction on paths; monotone scaling of minima.
* **C35 A system indexes variables consistently** - Sorted-union and index-of reasoning.
* **C36 The dual value is a lower bound on every consistent solution** - Sum of minima <= minimum of sums; invariant C38.
* **C37 Averaging never lowers the bound** - Exact cost algebra over WithTop Rat.
* **C38 Penalties stay a reparameterisation** - Invariant induction over operations.
* **C39 Greedy extraction returns a consistent assignment with its true cost** - Induction over variables with C30 & infinite penalties.
* **C40 An equal bound certifies optimality** - Corollary of C36/C39.
* **C41 The sweep solver stops and returns a non-worse bound** - Fuelled while loop; monotone objective; potential argument for termination.
* **C42 The constraint DAG accepts exactly the well-formed region choices** - DAG edges <-> automaton over the bracketed event stream; both directions.
* **C43 Region extraction never fails on accepted decisions** - Simulation of extraction along automaton runs.
* **C44 Region HTML is balanced and shows the same text** - Fold invariant on emitted pieces.
* **C45 Decision keys appear in increasing order on every path** - Key monotonicity via event-stream position.
* **C46 Edit DAG paths are exactly edit scripts** - Soundness/completeness of edges vs. inductive edit scripts.
* **C47 Edit DAG cost is the documented utility** - Same induction carrying cost.
* **C48 Perfect prediction with no regions has the best possible per-token cost** - Construct the path by induction.
* **C49 Derived region costs realise the requested precision** - Rational algebra (no model of floats).
* **C50 Selection DAG paths match selected parts contiguously** - Packed traversal = linearised tree (items); edges listed in a lexicographic order of states; paths ↔ inductive selection runs by induction on paths; cost and keys by induction on runs.
* **C51 Call extraction always yields well-shaped call groups** - Which sibling lists are calls, and the calls of a tree, are described by an inductive grammar, which is shown to be deterministic and to be what the recursive extraction computes. The baselines are shown to alternate starts and stops within each call, so that the constraint DAG has exactly one completion (C42, C43). That decorations of parsed programs are white space where it matters follows from the shape of the parse tree and the number of indents and dedents (C18).
* **C52 Prefix baselines exit at the intended place** - Scan invariants over the preorder list; each baseline is described by an independent predicate on the nodes before an exit (first exit where a condition holds, last exit before the first low word, first best average). The decisions are shown to have exactly one completion accepted by the constraint DAG, using C42 and C43.
* **C53 State lists contain every state once** - Fold invariant on the state list.
* **C54 Pruning, renumbering and packing together preserve the problem** - Compose the preservation theorems of pruning, renumbering and conversion.
* **C55 Partial commitment never loses a certified optimum** - Forbidden values have min-marginals above the dual bound.
* **C56 Constraining a system charges exactly the violated constraints** - Sum over the constraint list by induction.
* **C57 Every well-formed region choice is feasible in every edit DAG** - Region grammar derivations are turned into edit scripts that delete the whole prototype and insert the whole target.
* **C58 Every source file can be pseudo parsed, and the parse loses nothing** - The whole parser is modelled down to codec indices; indices are an injective renaming of token texts, and matching, splitting and the indentation pass commute with injective renamings. The second lexing of the corrected Python text gives the same tokens because regexes cannot look across the added brackets. Blocks can always be joined because markers are always next to newlines.
* **C59 The system built from a prototype and targets prices exactly the well-formed suggestions** - Composition of the earlier results: the utility DAG of each target and the constraint DAG pack with the same variables, so joint solutions are families of DAG solutions with the same decisions; scaled path costs add up; the constraint DAG costs nothing and accepts exactly the well-formed choices. Greedy extraction never leaves the well-formed choices because every path of the constraint DAG extends to a joint solution of finite cost (invariant of the loop).
* **C60 The reported costs of a suggestion are those of the cheapest edits that respect it** - Forbidding the values that contradict the dictionary leaves the paths of the utility DAG that make the recorded decisions; the cheapest such path is found by the packed DAG and read back as an edit script (C46, C47) or lookup (C50). Feasibility comes from C57. Sorting, bisection and averages are characterised by the values they compute.
* **C61 Combining samples returns a suggestion with a certified bound, for all samples** - The parser theorem (C19), the transformations (C06, C07, C09), the system theorem (C59) and the solution theorem (C60) are composed along the code of `combine`; removing markers is shown to commute with truncating. Baselines: C51 and C52 on the parsed prototype, then extraction (C43).
* **C62 What is shown of an edit sequence is faithful to both texts and to the cost** - The indices of edits are shown to point to leaves of the packed trees by induction on scripts (C46), so texts are always found. The grouping loop is related to a specification that shows each edit given the edits before it; by induction on scripts the texts taken from the prototype are all texts before the exit, and those of the target come from C46. Metrics are a dictionary whose 72 names are pairwise different.
* **C63 What is counted and shown of the calls of a suggestion is what is found and lost in the targets** - By induction on selections (C50), each report names an item of the trees, the reports about the prototype list its items in order, and those about the target list a prefix of its items. The loops over edges are related to filtering these reports; runs of edges are flattened again. The cost follows from C50 by splitting the price of each report by its type. `solution_info` and the HTML use C60.
* **C64 The uncertainty baselines mark exactly the tokens they call uncertain** - The loops over aligned log probabilities, preorder nodes and traversal items are scans over the nodes in preorder; the depth counter is the length of the path. The system with the prototype as target and the penalties has the joint solutions of the system of C59, at a cost increased by a million for each token left out, so bounds, termination and extraction carry over from C36, C39, C41 and C59.
* **C65 Suggestions are truncated at the end of the innermost block, else of the statement, and never backwards** - Both loops over the leaves are shown to be loops over lists: the leaves with their depths in the chosen brackets, and the leaves with their places in groups. The first list is the same for the tree without its groups (C17), where a token's depth is the number of chosen matching brackets around it, and matching brackets are laminar; the second needs where groups end, by induction on trees of brackets through splitting (C17) and joining indented blocks (C58). Matching brackets are specified by balance, not by the tree.
* **C66 Docstrings are found where they are, and truncated at their closing quotes** - The regular expressions are prefixes after leading spaces. The loop that counts indents is shown to divide the number of leading spaces by the width; the traversal is shown to meet exactly the neighbouring siblings of the tree (C58), whose texts are neighbours in the code because the ranges of siblings tile.
* **C67 In float64 arithmetic the tables are consistent and the costs are right up to a bounded error** - The functions are modelled again over an arbitrary addition that is monotone and absorbs infinity; relaxation computes minima of folds along paths for any monotone step. The error of a sum is bounded by induction over its length. float64 addition (53 bits, ties to even, gradual underflow, overflow to infinity) is shown to be such an addition with unit roundoff 2^-53.
* **C68 In float64 arithmetic the bounds reported by the dual solver exceed no solution by more than a bounded rounding error** - Averaging, sweeps and the solve loop are modelled again over an arithmetic with rounded sums, products and quotients. Averaging a variable discards its old penalties, so its penalties are out of balance only by the rounding of that one step; this is the invariant that keeps errors from accumulating. The reported bound is the rounded sum of minimal penalised costs, which differs from the cost of a joint solution by the imbalances and the rounding of the sums.
* **C69 In float64 arithmetic greedy extraction returns the cost of a best solution with the extracted values, up to a bounded rounding error** - The loop is modelled over the arithmetic of C68. Invariant: the subproblems are those of the start, with infinite penalties for the values not chosen of the variables done. The cost returned is the last min-marginal, where only the chosen values are left, so it is a rounded sum of costs of paths that make these choices; by the balance invariant of C68 their penalties cancel up to the imbalance.
* **C70 Systems that share nothing but their DAGs do not affect each other** - The solver is modelled once more with a memory of numbered arrays, systems that hold references, and every function reading and writing the memory in the order of the code. Frame conditions (which arrays a function may change) and refinement of the value model (`Model/Dual`, `Model/PackedDag`) are proved for each function, by induction over the loops; programs are lists of commands, and the invariant is that the arrays of all systems are different and exist.
* **C71 The builders of constraint and edit DAGs find every node they look up in packed storages** - The builders are modelled once more over packed storages: lists of ids, lookups that may fail, parents and positions read from the storage, and fuel for recursion (Model/StoredBuilders). A predicate says that a storage holds a tree at given ids, with the right parents and positions; it is proved for packed storages by induction over packing. By induction over trees every builder over ids then gives the edges of the builder over trees, and the properties of the latter (C42, C46, C47) carry over.
* **C72 In float64 arithmetic, suggestions for given prototypes and samples are right up to a bounded rounding error** - `build_system` is modelled over an arithmetic (Model/RoundedSystem): shares, their sum, and scaled costs are rounded. The parts differ from those of the exact model only in the scaled costs, so reported bounds and extracted costs differ from exact ones by the errors of C68 and C69 plus the rounding of scaling. The sizes of costs and penalties after T steps are bounded by induction (a step replaces penalties by averages of min-marginals), which discharges the range hypotheses of C68 and C69; the numbers of edges and the costs of edit, selection and constraint DAGs are bounded in terms of the trees.
* **C73 Drawings of DAGs show every state and edge, each state in a box of its own, and become well-formed documents** - Points, boxes, `render_dag` and `SVGRenderer` are modelled over rationals (Model/Drawing), a renderer being the calls it gets; the layouts of the three annotators in Model/Layouts. Positions along an axis are a recursion over the tree; induction shows that the slots of different positions are apart and that spans of groups enclose their slots. Reachability tags are those of C28. For documents, every item keeps the stack of open elements (induction on balanced calls), and escaping never adds a tag.
* **C74 Debug views have one line for each node and tell trees of short texts apart** - `render_debug` is modelled with Python's `repr` (Model/DebugView; which characters outside ASCII are printable is a parameter). The specification lists nodes with depths and gives the line of each, and says what a literal reads as. Escapes read back, so literals can be told apart; lines are split at newlines, the indentation is that before the first letter, and lines with depths determine the tree by induction.
* **C75 Edge tracebacks can be removed again and change nothing but metadata** - Metadata objects, dictionaries with their order, the global flag and programs with blocks, exceptions and handlers are modelled (Model/Tracebacks). The specification replays a program with the context manager doing nothing. Proofs are inductions over programs.
* **C76 A DAG made from a list of assignments has exactly these paths and costs** - `dag_from_paths` is modelled with the builder of C22 (Model/FromPaths; the order of sorting is a parameter). Fresh states keep the builder from rejecting edges; the states of a path have no other outgoing edges, so a walk that starts on a path follows it to its end.
* **C77 Parse trees are properly linked, and splitting leaves the given tree as it is** - Nodes are objects on a heap with the attributes of the code (Model/NodeHeap); functions get and return heaps. Spec/NodeHeap says which trees objects represent: trees with addresses, erased to the values of Model/StackParser. Bracket matching keeps an invariant about the chain of open brackets; copying and splitting are by induction on the tree with frame conditions (which addresses a call may change). Splitting groups children before it descends, as in the code, so the order in Model/StackParser is shown to make no difference.
* **C78 Moving groups under their neighbours keeps trees properly linked** - Model/NodeHeap has both passes as in the code. A tree with addresses and the list of moves determine the tree after the moves (buildT in Lemmas/NodeMoves); one move on the heap is one step of that (NodeTransplant), a list of moves all of them, failing exactly if one of them does not find its group (NodeMovesRun). The first pass collects the moves in depth-first order (NodeCollect); per level these are the moves of the function on values (NodeSubMatch). Neighbours are compared by range, so distinct nodes must have distinct ranges: only the inside of a bracket pair can be empty, which splitting preserves (NodeApart).
* **C79 The default configuration, which renumbers states, builds the same system** - Model/RewrittenSystem is build_system with pruneRewrite (C25) in the place of prune. Packing commutes with any renaming of states that is injective on the states of the DAG (Lemmas/ConvertRename: every table of the conversion is followed through the renaming; from injective functions to functions that are injective on the states by lifting the DAG to the subtype of its states). The states of a pruned DAG are on solutions, and all utility DAGs have solutions (C57), so C25_rename_partial gives such a renaming. The part about collisions is C25_sound and C26_backward.
* **C80 A notebook shows the suggestion, the edits, the utilities and the token probabilities as they are** - Model/Views is the four views over combine (C61). C80_edits and C80_calls combine C61, C62, C63 and C44; C80_default adds renumbered states (C79). Tags are read back with stripTags and tagsOf as in C44; the exponential is a parameter that may fail and whose digits contain no `>`. C80_token_probs composes parsing, truncation and C13; C13_values_any_nodes covers token nodes without text, which parsed trees contain.
* **C81 The simple annotator draws every edge properly, whatever boxes the states get** - Model/SimpleDrawing is the annotator with the boxes, colors, texts, hashes and the sigmoid function as parameters, used with render_dag of C73. Routes are specified in Spec/Drawing (`Route`, `Inner`) by coordinates only.
* **C82 The view of a parse tree shows every node and its tokens, and tells the tree** - Model/ParseView is the view as code: two columns of rows, padding, strip. C82_lines compares its lines with an independent listing of the nodes with depths (Spec/ParseView). C82_injective reads the tree back from the lines: the last bar separates the columns, the indentation gives the depths, and a list of depths in preorder determines the tree. C82_mask compares the first column with `masked` (Spec/ParseView).
* **C83 The plots of the optimization show valid bounds that never get worse, on the right side of the line** - Model/Progress is the three plots as lists of points, over combine (C61). What they should show is Spec/Progress; C83_edits and C83_calls follow from the invariant of the sweeps (C41), extended by the log of the sweeps, and from weak duality for suggestions (C61).
* **C84 In floating point, the bounds of the solver hardly fall, and its sweeps end by themselves** - Over the model of C68. Just before a variable is averaged, its penalties are in balance up to rounding (or the value is blocked by an infinite penalty that every subproblem knows); the bound after averaging is the minimum over values of a rounded sum of min-marginals, and the sum of the minimal costs before is at most that sum at each value, because each subproblem has a path that attains its min-marginal. Both are compared with exact sums of path costs, which gives the error of a step. A round that does not end the loop has a step that improves by more than the tolerance, so it gains the tolerance less the errors; bounds are bounded, so the number of such rounds is.
* **C85 In floating point, constraints and noise change what is optimized exactly as asked, and the guarantees of the solver stay** - Model/RoundedConstrain is both functions over an arithmetic. Before a variable is constrained, its extra cost and its penalties are zero, so the recorded extra cost is the penalty itself and every participating subproblem gets the same rounded share; the sum of the shares differs from the penalty by less than the imbalance that one averaging step may leave (C68). So the invariants of C68, C69 and C84 hold at the start, and their inductions over steps apply.
* **C86 In floating point, solving a system with constraints or noise neither overflows nor fails, and its result is optimal up to the reported gap** - No new code. The lemma of C72 about the size of one new penalty is proved with extra costs; induction over steps then bounds all penalties of a prepared system, which start at the shares of the extra costs. This gives the range hypotheses of C85 for any number of steps, and C85_bound with C85_greedy gives the certificate. Shares of weights are those of C68.
* **C87 In floating point, the decisions of the baselines for uncertain tokens are well-formed and optimal up to the reported gap and rounding** - _assignment_from_low_confidence_nodes is modelled over any machine arithmetic; with the exact one it is the model of C64. C85 and C86 give bounds, extraction and ranges for a system with constraints; the system of C72 differs from that of C59 by the rounding of scaled costs, so both errors add up. Two sweeps with a large tolerance end because reported bounds are in range.
* **C88 In floating point, partial commitment only forbids values, leaves every variable a value and keeps solutions within its limit up to rounding** - partially_commit is modelled over any machine arithmetic; with the exact one it is the model of C55. An invariant of its loop: the subproblems stay the same up to forbidden values, and the tables stay correct. Rounding is idempotent, so a smallest min-marginal never exceeds the limit. The min-marginals of the values of a joint solution are bounded by its cost with the errors of C68 and C69. A concrete system shows that an optimum can be lost.
* **C89 The threshold of partial commitment lies where the requested number of commitments asks for it** - np.quantile with linear interpolation is modelled over the rationals, on the list of entries with infinity replaced by minus infinity; what it returns next to an infinite entry is a parameter. The threshold is between two neighbours of the sorted list; counting the entries after a position of a sorted list gives both bounds. The last part goes through the loop invariant of C55.

## Which code is modelled

| file under /repo/r_u_sure | model | modelled | not modelled |
|---|---|---|---|
| wrappers/demo_runner.py: show_optimization_details | Model/Progress | the points of the plots | labels of axes, drawing; the clock is a parameter |
| rendering/simple_dag_annotator.py, rendering/rendering.py: to_bounded_irrational | Model/SimpleDrawing | the annotator, its colors, jitter and routes | boxes are those of a subclass (parameters); the sigmoid function, hashes and texts are parameters; numbers are rationals |
| parsing/pseudo_parser/stack_parser.py: views of nodes | Model/ParseView | Node.__repr__, human_readable_string | tokens that are integers |
| tree_structure/sequence_nodes.py, sequence_node_helpers.py | Model/Tree, DebugView | nodes, rendering, debug views, match-type handling, traversal with paths, validation helpers | nothing else |
| tree_structure/packed_sequence_nodes.py | Model/Pack | pack, unpack, lookups, traversals, depths | Numba types |
| tree_structure/token_prob_align.py | Model/TokenProbAlign, Model/Views | alignment of token log probabilities, HTML of tokens | - |
| tree_structure/transforms.py | Model/Tree | region and exit insertion, truncation, flattening, separators | - |
| parsing/subtokenizer.py | Model/Subtokenizer | the subtokenizer state machine | Unicode tables (parameters) |
| decision_diagrams/gated_state_dag.py, gated_state_dag_test_lib.py | Model/GatedDag, Tracebacks, FromPaths | partial and complete DAGs, add_edge, edge tracebacks, pruning (both versions), renumbering with hash slots, dag_from_paths | Numba struct types |
| decision_diagrams/packed_dags.py | Model/Convert, Model/PackedDag, Model/Rounded, Model/Rounding64, Model/Float64, Model/RoundedSystem | conversion, tables, minimal cost, min marginals, path extraction, operations on the memo; tables, costs, extraction and scaling also in float64 | NaN, overflow to minus infinity |
| decision_diagrams/consistent_path_dual_solver.py | Model/Dual, Model/RoundedDual, Model/RoundedGreedy, Model/RoundedConstrain, Model/RoundedCommit, Model/Quantile, Model/Memory | make_system, clone_system, views, sweeps, min-marginal averaging, greedy extraction, commitment, the solve loop; averaging, sweeps, the solve loop, greedy extraction, constraints, noise and commitment also in float64; everything also with arrays mutated in place (Model/Memory) | logging, wall clock time (any schedule of time-outs), rounding of the quantile |
| edit_distance_utility/region_decisions.py | Model/Regions | decision keys and values, extraction of annotated sequences, HTML | - |
| edit_distance_utility/constraint_dags.py | Model/Constraint (trees), Model/StoredBuilders (ids of packed storages; C71) | states, all edges, construction order, packing arguments | Numba specialisation |
| edit_distance_utility/edit_dags.py | Model/Edit (trees), Model/StoredBuilders (ids of packed storages; C71) | states, all edges in construction order, token utilities | - |
| edit_distance_utility/part_selection_dags.py | Model/Selection | states, all edges in construction order, on packed storage | utilities (parameters) |
| parsing/pseudo_parser/stack_parser.py | Model/StackParser (values), Model/NodeHeap (linked nodes; C77, C78) | bracket matching, error correction, range check, split_parse with sub matches, Node.copy | node deletion |
| parsing/pseudo_parser/stack_parser.py: RegexCodec | Model/Regex, Model/Codec | token specifications of all languages, regular expressions with backreferences, lazy and greedy repetition, look-behind and $, finditer, add_token, encode, decode | the engine of re itself (modelled as the first of all matches in order of preference); Unicode tables of \d (a parameter) |
| parsing/pseudo_parser/stack_parser.py: python_indent_dedent_desugar | Model/Desugar | lines, indentation, markers | negative units; laziness of the line generator |
| parsing/pseudo_parser/stack_parser.py: PseudoParser | Model/PseudoParser | presets, pseudo_parse, parse_and_maybe_preprocess with all assertions | unknown languages, logging; StopIteration counts as ValueError |
| parsing/sequence_from_pseudo_parse.py, pseudo_parser/utilities.py: infer_python_spaces_per_indent, wrappers/parser_tools.py | Model/ParserTools | conversion of parse trees, inference of the indentation unit, parse_to_nodes | packing for Numba (Model/Pack has the packing) |
| parsing/pseudo_parser/utilities.py: truncation and docstrings | Model/Truncation | all other functions of the file | unknown languages; match pairs of a string and a type |
| wrappers/call_sequence_wrapper.py | Model/CallSequence | extract_context_tokens, _extract_all_from, _make_callseq_tree, process_prototype_and_context, process_target, build_baseline_assignments | caching; sets are lists; the built-in tokens are a parameter |
| wrappers/edit_distance_wrapper_base.py, wrappers/call_sequence_wrapper.py | Model/System, Model/RewrittenSystem | build_system with and without renumbered states | caching; scale factors are rationals |
| wrappers/edit_distance_wrapper_base.py, wrappers/call_sequence_wrapper.py: solution_info | Model/Solution | restriction of the DAGs to a dictionary, costs per sample, averages, variance, rank | summaries of the evaluation path are a parameter; rendering; empty lists give NaN in numpy (none here) |
| rendering/rendering.py, rendering/dag_annotator.py, rendering/svg_renderer.py | Model/Drawing | points, boxes, render_dag, all methods of SVGRenderer as used by render_dag, to_html up to blanks | coordinates are rationals, the text of numbers is a parameter; style sheets are parameters |
| annotators of constraint_dags.py, edit_dags.py, part_selection_dags.py | Model/Layouts | layout of states, edges, node texts and regions, subproblem list | shortnames, hover texts and style tags of states and edges (parameters) |
| edit_distance_utility/edit_dags.py, wrappers/edit_distance_wrapper_base.py: rendering | Model/EditSequence | groups, HTML and metrics of edit sequences, render_solution_html, render_pairwise_matching_html | printed numbers and column layout of extract_edit_sequence_text; the style sheet is a parameter |
| wrappers/call_sequence_wrapper.py: token_node_utility_fn, solution_info counts, render_pairwise_matching_html; part_selection_dags.py: extract_match_groups | Model/MatchGroups | utilities, counts, groups and HTML of lookups | names of the reported counts; Numba |
| wrappers/demo_runner.py, wrappers/edit_distance_wrapper_base.py: process_prototype_and_context, process_target | Model/Runner, Model/Views | combine, build_baselines (prefix and call wrappers), grouping in get_extracted_parts, show_suggestion, show_edits, show_utilities, show_token_probs | printing of numbers; error messages; seconds are a parameter |
| wrappers/prefix_truncation_wrapper.py | Model/PrefixBaselines | build_baseline_assignments and all baselines of the builder | the text of numbers in the names; the exponential is a parameter; floats are rationals or minus infinity |
| wrappers/uncertainty_regions_wrapper.py | Model/Params, Model/UncertaintyBaselines, Model/RoundedBaselines | derivation of region costs; build_baseline_assignments and all baselines of the builder | the text of numbers in the names; the exponential is a parameter; floats are rationals or minus infinity |

## Where code, documentation and expectations disagree

* C88: in float64 `partially_commit` can forbid values so that only worse solutions remain, also with a positive strictness, because the limit and the min-marginals are rounded (`C88_loses`); in exact arithmetic an optimum equal to the bound is kept (C55).
* C82: `human_readable_string` shows a node that ends at 0 (an empty node at the start of the stream) as if it covered the first token (`C82_mask_zero`).
* C81: the numbers of `to_bounded_irrational` repeat after 161803 indices, since the constant is rational (`C81_spread`).
* C79: the wrappers use the renumbering with hash slots of C25 by default, so the loss of solutions of `C25_collision_loses_solutions` can affect suggestions when two states of a DAG have the same hash value modulo 2**25 and the evicted one is requested again.
* C75: `adding_edge_tracebacks` sets the flag to False at its end instead of restoring it, so after an inner block the rest of an outer block adds no tracebacks (`C75_nested`); stripping an edge whose metadata is a dictionary with a key `original_info` returns the value of that key, even if no traceback was added (`C75_reserved`).
* C74: debug views cut texts of more than 80 characters, so tests that compare views do not see differences behind the 77th character of a long token (`C74_ambiguous`).
* C73: `SVGRenderer.label_at_point` with the directions UP, UP_LEFT and UP_RIGHT draws the label below the point (`C73_up_is_below`; not used by `render_dag`), and labels LEFT or RIGHT of a point that have several lines are not level with it (`C73_level_iff`; RIGHT is used by `render_dag`). The sign of the vertical offset is wrong in both.
* C69: in float64 the cost returned by `greedy_extract` need not be the cost of a solution with the returned values (`C69_differs`).
* C68: the bounds of the dual solver are lower bounds (C36) only in exact arithmetic; in float64 they may exceed the cost of a solution by a rounding error (`C68_exceeds`), so comparing them with the cost of a solution needs a tolerance.
* C67: the strategies of `compute_minimal_cost` compute the same cost (C31) only in exact arithmetic; in float64 they may differ in the last digits because they add in different orders (`C67_strategies_differ`).
* C65: a cursor on the last token within braces does not count as within them (`C65_last_token`); blocks whose closing token is the last token are not found (`C65_closing_last`); one token after the closing one is kept; a semicolon alone in brackets ends no statement (`C65_lone_semicolon`); `splitters=None`, documented as all splitters, raises `TypeError` (`C65_all_splitters`); empty Python code raises `IndexError` (`C65_python_empty`).
* C66: `infer_truncation_pydocstring` accepts negative cursors, but its result is then relative to the end of the code and may be zero (`C66_negative`).
* C66: empty code raises `IndexError` in `find_python_function_docstrings` (`C66_empty`).
* C61: a system with at most one decision is reported as empty (`CombineResult` without a solution) although it has one (`C61_edits`); this needs an (almost) empty sample. `combine` raises `IndexError` for an empty Python program (`C61_empty_python`).
* C51: an empty decoration in the name of a call makes the baselines fail an assertion (`C51_empty_decoration`); this never happens for parsed programs (`C51_programs`). Calls in the arguments of a call are not extracted. At location zero the first token of the program still counts as context (`C51_context`).
* C52: `_assignment_from_exit_point` sets region starts after the exit to FALSE, but the constraint DAG needs them to be NOT_APPLICABLE there (`C52_late_start`); harmless as the wrapper has no baselines when region markers are inserted. With a zero `kappa` the IntelliCode heuristic divides by zero (`C52_kappa_zero`).
* C21: the case of a dedent in `infer_python_spaces_per_indent` can never occur, because a dedent is always followed by another dedent or a newline; lines reached by dedenting are no evidence, and their indentation may not be a multiple of the inferred unit (`C21_dedent_ignored`). A candidate of zero raises `ZeroDivisionError`, but only if there is evidence (`C21_zero`).
* C19: empty Python text raises in `parse_to_nodes` (`C19_python_empty`), although the inference of the indentation unit takes care of it. Brackets that were added to balance the text, and empty bracket contents, become empty text tokens rather than decorations.
* C03: a negative last index in a path wraps around (Python indexing) instead of being rejected (`C03_negative_last_index`).
* C04: the recorded depth and `compute_depth` disagree on trees with empty groups (`C04_empty_group_witness`).
* C05: the traversal is recursive in the code, so the model is too.
* C09: negative offsets slice Python-style (`C09_negative_offset_witness`).
* C22: self-loop edges are accepted (`C22_self_loop_accepted`); the message of the error about a wrongly ordered edge is built by looking up a key that may be missing (gated_state_dag.py:252), so a `KeyError` may be raised instead of `ValueError`.
* C24: the two pruning implementations disagree on edge lists that are not topologically ordered (`C24_order_needed`).
* C25: the renumbering with hash slots can lose solutions when a state evicted by a collision is requested again (`C25_collision_loses_solutions`), and fails on a DAG with a solution when the evicted state is the final one (`C25_collision_fails`). It never invents a solution (`C25_sound`). An unreachable final state leads to an out-of-bounds write before an error is raised.
* C26/C28: conversion raises `KeyError` if the DAG contains states that cannot reach the final state.
* C31: the from-the-middle strategy fails an assertion if there are no variables (`C31_from_middle_needs_variable`).
* C33: with infeasible constraints (infinite best cost) extraction returns a one-edge path or fails an assertion, contradicting the docstring (`C33_infeasible`).
* C37: averaging, marginals and greedy extraction fail an assertion when a subproblem that does not take part in a variable has no variables at all (`C37_defined`).
* C38: penalties of a value sum to its extra costs only if the value occurs in a finite-cost joint solution.
* C39: with no variables the cost of greedy extraction is NaN; with no values the argmin fails.
* C41: with at most one variable the sweeps do nothing (`C41_at_most_one_variable`); the soft time-out only leaves the inner loop of a sweep.
* C43/C44: regions that follow each other directly are shown in one span; an empty region that is open at the early exit shows no marker.
* constraint_dags.py, region_decisions.py: the docstring of `insert_early_exit` asks for early exits to be inserted before regions; the wrapper does the opposite (edit_distance_wrapper_base.py:108-115).
* C50: the flag that allows unmatched selections is only set at items other than region ends, so a prototype that starts with a region end raises an unbound local error (`C50_builds`); an early exit in the prototype makes the selection DAG unsolvable (`C50_exits`). A selected part can only be matched while there is target left, so an empty part at the end of the target can only be given up (at no cost).
* C15: closers of a different kind than the surrounding bracket are neither corrected nor reported (`C15_wrong_closer_kept`); tables in which a token is both opener and closer are not handled (`C15_table_needed`).
* C16: a closer outside of all brackets is silently left out of the tree, even without error tolerance where the docstring promises `ParseError` (`C16_dropped_closer`); harmless in the parser, which corrects first.
* C17: `split_parse` with `sub_match_pair` raises `ValueError` (list.remove) if two neighbouring groups both contain such a bracket, or one group contains two (`C17_chain_raises`, `C17_twice_raises`).
* C18: without a newline at the end, the indentation pass drops all tokens of the last line but the first, or fails an assertion (`C18_newline_needed`, `C18_newline_needed_raises`); the parser appends a newline.
* C20: in the C-like languages the regular expression for strings has a back reference to another group, so it never matches; quoted strings are typed as comments, which are statement splitters there (`C20_c_strings`).
* C20: the indent and dedent markers are both registered for the text `''`; the next new token would get the number of the dedent marker (`C20_markers_collide`); harmless in the parser as long as no new token is encoded afterwards.
* C59: `build_system` zips targets with scale factors, so targets beyond the given factors are silently ignored (`C59_fewer_factors`).
* C58: the unsplittable pairs of Python list the square brackets twice and leave out the braces, so newlines within braces split their content into groups, unlike those in other brackets (`C58_braces_split`). Empty Python code raises `IndexError` (`C58_python_empty`).

## Axioms each theorem depends on

As printed by `#print axioms`.

* **Classical.choice, Quot.sound, propext**: `C01_unpack_pack`, `C01_pack_injective`, `C02_preorder`, `C03_lookup_path`, `C03_preorder_roundtrip`, `C03_rejects_partial`, `C03_negative_indices`, `C04_render`, `C04_depth`, `C04_depth_agrees_partial`, `C05_in_order`, `C07_strip_idempotent`, `C08_no_singleton_left`, `C09_truncate_text`, `C09_truncate_leaves`, `C09_truncate_structure`, `C09_negative_offset_witness`, `C10_runs_can_be_enclosed`, `C10_accepted_is_wrapped`, `C10_option_count`, `C11_exit_placement`, `C12_walk`, `C13_succeeds_iff`, `C13_values`, `C13_values_any_nodes`, `C13_values_general`, `C13_flatten_text`, `C14_lossless`, `C14_shape`, `C14_split_points`, `C16_tree`, `C16_corrected`, `C17_splitting_keeps`, `C17_valid`, `C17_nests`, `C18_erase`, `C18_depth`, `C18_neighbours`, `C19_text`, `C19_boundaries`, `C19_raw`, `C19_direct`, `C19_python`, `C20_roundtrip`, `C20_injective`, `C20_extends`, `C20_additions`, `C20_c_strings`, `C20_markers_collide`, `C21_inferred`, `C21_runs`, `C21_default`, `C21_zero`, `C22_acyclic`, `C22_self_loop_accepted`, `C23_solutions`, `C23_keeps_exactly`, `C24_agree`, `C24_order_needed`, `C25_rename_partial`, `C25_collision_loses_solutions`, `C25_sound`, `C25_never_cheaper`, `C25_collision_fails`, `C26_forward`, `C26_backward`, `C26_unique`, `C26_minimum`, `C27_convert`, `C28_reject`, `C28_error`, `C28_accept`, `C29_prefixes`, `C29_suffixes`, `C29_becomes_valid`, `C30_min_marginals`, `C30_all_min_marginals`, `C31_minimal_cost`, `C31_strategies_agree`, `C31_from_middle_needs_variable`, `C32_extract`, `C32_infinite`, `C33_constrained`, `C33_infeasible`, `C34_scale_paths`, `C34_scale_minimum`, `C35_errors`, `C35_make_system`, `C35_joint_solutions`, `C36_lower_bound`, `C36_min_marginals`, `C37_defined`, `C37_averaging`, `C38_penalties`, `C38_reparameterisation`, `C38_unchanged`, `C39_greedy`, `C39_greedy_defined`, `C39_assignment_pairs`, `C40_certificate`, `C41_sweeps`, `C41_order`, `C41_terminates`, `C41_at_most_one_variable`, `C42_builds`, `C42_grammar`, `C42_accepts`, `C42_packed`, `C43_extract`, `C43_accepted`, `C44_html`, `C44_error`, `C44_escape_injective`, `C45_constraint`, `C45_constraint_packs`, `C45_edit`, `C45_edit_packs`, `C45_selection`, `C45_selection_packs`, `C46_builds`, `C46_scripts`, `C46_tokens`, `C46_kept`, `C46_alignments`, `C47_cost`, `C47_confidence`, `C48_perfect`, `C48_bound`, `C48_derived`, `C49_precision`, `C49_correct_is_better`, `C49_sensitivity_one_degenerate`, `C50_builds`, `C50_paths`, `C50_same`, `C50_cost`, `C50_exits`, `C50_decisions`, `C50_feasible`, `C51_calls`, `C51_tree`, `C51_text`, `C51_baselines`, `C51_programs`, `C52_exit`, `C52_characters`, `C52_lines`, `C52_token_prob`, `C52_intellicode`, `C52_max_average`, `C52_kappa_zero`, `C52_all`, `C52_accepted`, `C52_late_start`, `C53_initial_first`, `C54_minimum`, `C54_succeeds`, `C54_end_to_end`, `C54_renumbered`, `C55_partial_commitment`, `C55_only_forbids`, `C55_no_assignment`, `C56_constrain`, `C56_constrain_defined`, `C56_break_symmetry`, `C57_decisions`, `C57_feasible`, `C58_direct`, `C58_python`, `C58_python_tree`, `C58_python_lines`, `C58_python_markers`, `C59_builds`, `C59_no_targets`, `C59_fewer_factors`, `C59_cost`, `C59_bound`, `C59_greedy`, `C59_terminates`, `C59_selection_builds`, `C59_selection_cost`, `C59_selection_greedy`, `C59_selection_bound`, `C59_selection_terminates`, `C60_all_decisions`, `C60_all_recorded`, `C60_samples`, `C60_evaluation`, `C60_unknown_decision`, `C60_average`, `C60_selection_all_decisions`, `C60_selection_samples`, `C60_selection_evaluation`, `C61_edits`, `C61_index`, `C61_empty_python`, `C61_context`, `C61_calls`, `C61_prefix_baselines`, `C61_call_baselines`, `C61_certificate`, `C61_average`, `C62_groups`, `C62_costs`, `C62_prototype`, `C62_result`, `C62_result_text`, `C62_html`, `C62_reader`, `C62_metrics`, `C62_metric_names`, `C62_pairwise`, `C62_info`, `C62_solution`, `C63_precision`, `C63_tokens`, `C63_groups`, `C63_counts`, `C63_selected`, `C63_cost`, `C63_info`, `C63_pairwise`, `C64_tokens`, `C64_bad_cutoff`, `C64_assignment`, `C64_baselines`, `C64_bad_configuration`, `C65_brackets`, `C65_statements`, `C65_direct`, `C65_python`, `C65_preprocessor`, `C65_forward`, `C65_bad_cursor`, `C66_docstrings`, `C66_in_code`, `C66_truncate`, `C66_usable`, `C67_exact`, `C67_prefixes`, `C67_suffixes`, `C67_no_drift`, `C67_min_marginals`, `C67_minimal_cost`, `C67_extract`, `C67_constrained`, `C67_path_error`, `C67_minimal_cost_error`, `C67_extract_error`, `C67_float64`, `C67_strategies_differ`, `C68_exact`, `C68_bound`, `C68_solve`, `C68_float64`, `C68_shares`, `C68_shares_weighted`, `C68_exceeds`, `C69_exact`, `C69_greedy`, `C69_defined`, `C69_certificate`, `C69_differs`, `C70_history`, `C70_untouched`, `C70_clone`, `C70_greedy`, `C71_constraint_same`, `C71_constraint`, `C71_edit_same`, `C71_edit`, `C72_exact`, `C72_builds`, `C72_bound`, `C72_greedy`, `C72_solve`, `C72_parts`, `C72_selection_builds`, `C72_selection_solve`, `C72_selection_parts`, `C72_left_sum`, `C72_factors`, `C72_shares`, `C72_float64`, `C72_selection_float64`, `C72_no_failure`, `C72_size`, `C72_range`, `C72_errors`, `C72_inputs`, `C72_selection_inputs`, `C73_shown`, `C73_total`, `C73_balanced`, `C73_constraint`, `C73_constraint_texts`, `C73_edit`, `C73_edit_extras`, `C73_selection`, `C73_selection_texts`, `C73_view_box`, `C73_calls_total`, `C73_well_formed`, `C73_texts_written`, `C73_hover_written`, `C73_document`, `C73_in_view`, `C73_up_is_below`, `C73_level_iff`, `C74_repr`, `C74_lines`, `C74_one_line_each`, `C74_injective`, `C74_ambiguous`, `C75_strip`, `C75_reserved`, `C75_annotators`, `C75_same_dag`, `C75_off_again`, `C75_traced`, `C75_nested`, `C75_metadata_unused`, `C76_paths`, `C76_cost`, `C77_match`, `C77_copy`, `C77_split`, `C77_valid`, `C77_parents_checked`, `C78_nested`, `C78_balanced`, `C79_edit_report`, `C79_edit_html`, `C79_call_html`, `C79_call_report`, `C79_info`, `C79_combine`, `C79_combine_calls`, `C79_edit`, `C79_selection`, `C79_edit_greedy`, `C79_edit_sound`, `C79_selection_sound`, `C80_tokens`, `C80_token_probs`, `C80_edits`, `C80_calls`, `C80_default`, `C81_spread`, `C81_total`, `C81_drawn`, `C81_apart`, `C81_straight`, `C82_lines`, `C82_injective`, `C83_edits`, `C83_calls`, `C84_steps`, `C84_stops`, `C85_exact`, `C85_float64`, `C85_constrain`, `C85_noise`, `C85_bound`, `C85_finite`, `C85_greedy`, `C85_steps`, `C85_stops`, `C86_range`, `C86_defined`, `C86_certificate`, `C86_shares`, `C86_float64`, `C87_ends`, `C87_size`, `C87_exact`, `C87_assignment`, `C88_exact`, `C88_float64`, `C88_loses`, `C88_only_forbids`, `C88_keeps_value`, `C88_defined`, `C88_keeps`, `C89_above`, `C89_reached`, `C89_number`, `C89_keeps`
* **Quot.sound, propext**: `C06_transforms_preserve_text`, `C07_strip_undoes_insert`, `C08_expand_collapse`, `C08_collapse_injective`, `C09_marks_injective`, `C15_balanced`, `C15_empty`, `C15_strict`, `C15_only_brackets`, `C15_wrong_closer_kept`, `C16_forest`, `C16_tolerant`, `C16_strict`, `C17_succeeds`, `C17_groups`, `C17_all_split`, `C17_unsplittable`, `C18_lines`, `C18_nested`, `C18_balanced`, `C22_topological`, `C22_accepts_iff`, `C27_each_variable_once`, `C51_context`, `C51_empty_decoration`, `C53_state_list`, `C53_first_appearance`, `C61_groups`, `C66_not_after_quotes`, `C82_mask`, `C82_mask_zero`
* **none**: `C04_empty_group_witness`, `C15_table_needed`, `C16_dropped_closer`, `C66_negative`
* **propext**: `C03_negative_last_index`, `C06_render_is_text`, `C06_flatten_is_leaves`, `C10_single_nodes`, `C17_chain_raises`, `C17_twice_raises`, `C18_newline_needed`, `C18_newline_needed_raises`, `C18_zero_raises`, `C19_python_empty`, `C21_empty`, `C21_dedent_ignored`, `C43_text`, `C58_python_empty`, `C58_python_zero`, `C58_braces_split`, `C65_python_empty`, `C65_last_token`, `C65_closing_last`, `C65_lone_semicolon`, `C65_all_splitters`, `C66_empty`, `C66_not_found`

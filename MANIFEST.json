{
 "claims": [
  {
   "property": "C01",
   "status": "proved",
   "theorems": [
    "RUSure.Props.C01_unpack_pack",
    "RUSure.Props.C01_pack_injective"
   ],
   "note": ""
  },
  {
   "property": "C02",
   "status": "proved",
   "theorems": [
    "RUSure.Props.C02_preorder"
   ],
   "note": ""
  },
  {
   "property": "C03",
   "status": "partial",
   "theorems": [
    "RUSure.Props.C03_lookup_path",
    "RUSure.Props.C03_preorder_roundtrip",
    "RUSure.Props.C03_rejects_partial",
    "RUSure.Props.C03_negative_last_index",
    "RUSure.Props.C03_negative_indices"
   ],
   "note": "Round trip proved for every node. Rejection proved for paths with no negative index (C03_rejects_partial); the code accepts a negative last index (C03_negative_last_index proves this disagreement; C03_negative_indices says exactly what it does)."
  },
  {
   "property": "C04",
   "status": "proved",
   "theorems": [
    "RUSure.Props.C04_render",
    "RUSure.Props.C04_depth",
    "RUSure.Props.C04_depth_agrees_partial",
    "RUSure.Props.C04_empty_group_witness"
   ],
   "note": "Depth: recorded depth = 1 + deepest level at which a node occurs (C04_depth); it equals compute_depth only when no group is empty (C04_depth_agrees_partial, counterexample C04_empty_group_witness)."
  },
  {
   "property": "C05",
   "status": "proved",
   "theorems": [
    "RUSure.Props.C05_in_order"
   ],
   "note": ""
  },
  {
   "property": "C06",
   "status": "proved",
   "theorems": [
    "RUSure.Props.C06_render_is_text",
    "RUSure.Props.C06_transforms_preserve_text",
    "RUSure.Props.C06_flatten_is_leaves"
   ],
   "note": ""
  },
  {
   "property": "C07",
   "status": "proved",
   "theorems": [
    "RUSure.Props.C07_strip_undoes_insert",
    "RUSure.Props.C07_strip_idempotent"
   ],
   "note": ""
  },
  {
   "property": "C08",
   "status": "proved",
   "theorems": [
    "RUSure.Props.C08_expand_collapse",
    "RUSure.Props.C08_collapse_injective",
    "RUSure.Props.C08_no_singleton_left"
   ],
   "note": ""
  },
  {
   "property": "C09",
   "status": "proved",
   "theorems": [
    "RUSure.Props.C09_truncate_text",
    "RUSure.Props.C09_truncate_leaves",
    "RUSure.Props.C09_truncate_structure",
    "RUSure.Props.C09_marks_injective",
    "RUSure.Props.C09_negative_offset_witness"
   ],
   "note": "C09_truncate_structure: the groups that remain, empty ones included; C09_marks_injective: the specification determines the tree. For negative offsets the code slices Python-style (C09_negative_offset_witness)."
  },
  {
   "property": "C10",
   "status": "proved",
   "theorems": [
    "RUSure.Props.C10_runs_can_be_enclosed",
    "RUSure.Props.C10_accepted_is_wrapped",
    "RUSure.Props.C10_option_count",
    "RUSure.Props.C10_single_nodes"
   ],
   "note": ""
  },
  {
   "property": "C11",
   "status": "proved",
   "theorems": [
    "RUSure.Props.C11_exit_placement"
   ],
   "note": ""
  },
  {
   "property": "C12",
   "status": "proved",
   "theorems": [
    "RUSure.Props.C12_walk"
   ],
   "note": ""
  },
  {
   "property": "C13",
   "status": "proved",
   "theorems": [
    "RUSure.Props.C13_succeeds_iff",
    "RUSure.Props.C13_values",
    "RUSure.Props.C13_values_any_nodes",
    "RUSure.Props.C13_values_general",
    "RUSure.Props.C13_flatten_text"
   ],
   "note": "C13_values_general: any prototype and any model tokens, empty ones included; C13_values and C13_values_any_nodes: the simpler sums when no node, or no model token, is empty. Log probs range over any type with + and 0, summed in the code's order."
  },
  {
   "property": "C14",
   "status": "proved",
   "theorems": [
    "RUSure.Props.C14_lossless",
    "RUSure.Props.C14_shape",
    "RUSure.Props.C14_split_points"
   ],
   "note": "Unicode predicates are parameters; the whitespace clause assumes blanks/tabs are whitespace and whitespace is not alphanumeric."
  },
  {
   "property": "C15",
   "status": "proved",
   "theorems": [
    "RUSure.Props.C15_balanced",
    "RUSure.Props.C15_empty",
    "RUSure.Props.C15_strict",
    "RUSure.Props.C15_only_brackets",
    "RUSure.Props.C15_wrong_closer_kept",
    "RUSure.Props.C15_table_needed"
   ],
   "note": "Well-formed tables; C15_wrong_closer_kept and C15_table_needed show the limits."
  },
  {
   "property": "C16",
   "status": "proved",
   "theorems": [
    "RUSure.Props.C16_forest",
    "RUSure.Props.C16_tree",
    "RUSure.Props.C16_corrected",
    "RUSure.Props.C16_tolerant",
    "RUSure.Props.C16_strict",
    "RUSure.Props.C16_dropped_closer"
   ],
   "note": "C16_dropped_closer proves that strict mode loses closers outside of brackets."
  },
  {
   "property": "C17",
   "status": "proved",
   "theorems": [
    "RUSure.Props.C17_splitting_keeps",
    "RUSure.Props.C17_valid",
    "RUSure.Props.C17_succeeds",
    "RUSure.Props.C17_groups",
    "RUSure.Props.C17_all_split",
    "RUSure.Props.C17_unsplittable",
    "RUSure.Props.C17_nests",
    "RUSure.Props.C17_chain_raises",
    "RUSure.Props.C17_twice_raises"
   ],
   "note": "For trees made by the matcher; C17_chain_raises and C17_twice_raises show when moving groups raises."
  },
  {
   "property": "C18",
   "status": "proved",
   "theorems": [
    "RUSure.Props.C18_lines",
    "RUSure.Props.C18_erase",
    "RUSure.Props.C18_nested",
    "RUSure.Props.C18_balanced",
    "RUSure.Props.C18_depth",
    "RUSure.Props.C18_neighbours",
    "RUSure.Props.C18_newline_needed",
    "RUSure.Props.C18_newline_needed_raises",
    "RUSure.Props.C18_zero_raises"
   ],
   "note": "C18_newline_needed and C18_zero_raises show what happens without the final newline or with unit 0."
  },
  {
   "property": "C19",
   "status": "proved",
   "theorems": [
    "RUSure.Props.C19_text",
    "RUSure.Props.C19_boundaries",
    "RUSure.Props.C19_raw",
    "RUSure.Props.C19_direct",
    "RUSure.Props.C19_python",
    "RUSure.Props.C19_python_empty"
   ],
   "note": "C19_text and C19_boundaries for any tree; C19_direct, C19_python and C19_raw for whole programs in every language. C19_python_empty: empty Python text raises."
  },
  {
   "property": "C20",
   "status": "proved",
   "theorems": [
    "RUSure.Props.C20_roundtrip",
    "RUSure.Props.C20_injective",
    "RUSure.Props.C20_extends",
    "RUSure.Props.C20_additions",
    "RUSure.Props.C20_c_strings",
    "RUSure.Props.C20_markers_collide"
   ],
   "note": "C20_c_strings and C20_markers_collide are findings. Unicode decimal digits are a parameter that agrees with 0-9 on ASCII."
  },
  {
   "property": "C21",
   "status": "proved",
   "theorems": [
    "RUSure.Props.C21_inferred",
    "RUSure.Props.C21_runs",
    "RUSure.Props.C21_default",
    "RUSure.Props.C21_empty",
    "RUSure.Props.C21_zero",
    "RUSure.Props.C21_dedent_ignored"
   ],
   "note": "C21_dedent_ignored is a finding: lines reached by dedenting are no evidence. C21_zero: a candidate of zero raises if there is evidence."
  },
  {
   "property": "C22",
   "status": "proved",
   "theorems": [
    "RUSure.Props.C22_topological",
    "RUSure.Props.C22_accepts_iff",
    "RUSure.Props.C22_acyclic",
    "RUSure.Props.C22_self_loop_accepted"
   ],
   "note": "Acceptance is characterised exactly; C22_self_loop_accepted proves that self loops slip through."
  },
  {
   "property": "C23",
   "status": "proved",
   "theorems": [
    "RUSure.Props.C23_solutions",
    "RUSure.Props.C23_keeps_exactly"
   ],
   "note": ""
  },
  {
   "property": "C24",
   "status": "proved",
   "theorems": [
    "RUSure.Props.C24_agree",
    "RUSure.Props.C24_order_needed"
   ],
   "note": "Agreement holds for topologically ordered edge lists (what the builder guarantees); C24_order_needed shows it fails otherwise."
  },
  {
   "property": "C25",
   "status": "partial",
   "theorems": [
    "RUSure.Props.C25_rename_partial",
    "RUSure.Props.C25_collision_loses_solutions",
    "RUSure.Props.C25_sound",
    "RUSure.Props.C25_never_cheaper",
    "RUSure.Props.C25_collision_fails"
   ],
   "note": "C25_rename_partial allows hash collisions as long as no state evicted from its slot is requested again; C25_sound and C25_never_cheaper hold for every hash function and table size, collisions and evictions included (what is returned never invents a solution, every edge lies on one, the numbers are exactly 0..n-1). What is missing is that no solution is lost and that a DAG with solutions does not fail: C25_collision_loses_solutions and C25_collision_fails refute both for evicted states that are requested again."
  },
  {
   "property": "C26",
   "status": "proved",
   "theorems": [
    "RUSure.Props.C26_forward",
    "RUSure.Props.C26_backward",
    "RUSure.Props.C26_unique",
    "RUSure.Props.C26_minimum"
   ],
   "note": "Conversion of any accepted DAG; assignments of the extracted path are those of the original path, with missing variables set to the missing value."
  },
  {
   "property": "C27",
   "status": "proved",
   "theorems": [
    "RUSure.Props.C27_convert",
    "RUSure.Props.C27_each_variable_once"
   ],
   "note": "Packed invariants hold for every successful conversion."
  },
  {
   "property": "C28",
   "status": "proved",
   "theorems": [
    "RUSure.Props.C28_reject",
    "RUSure.Props.C28_error",
    "RUSure.Props.C28_accept"
   ],
   "note": "Which inputs raise ordering errors and key errors."
  },
  {
   "property": "C29",
   "status": "proved",
   "theorems": [
    "RUSure.Props.C29_prefixes",
    "RUSure.Props.C29_suffixes",
    "RUSure.Props.C29_becomes_valid"
   ],
   "note": ""
  },
  {
   "property": "C30",
   "status": "proved",
   "theorems": [
    "RUSure.Props.C30_min_marginals",
    "RUSure.Props.C30_all_min_marginals"
   ],
   "note": ""
  },
  {
   "property": "C31",
   "status": "proved",
   "theorems": [
    "RUSure.Props.C31_minimal_cost",
    "RUSure.Props.C31_strategies_agree",
    "RUSure.Props.C31_from_middle_needs_variable"
   ],
   "note": "The from-the-middle strategy fails an assertion when there are no variables (C31_from_middle_needs_variable)."
  },
  {
   "property": "C32",
   "status": "proved",
   "theorems": [
    "RUSure.Props.C32_extract",
    "RUSure.Props.C32_infinite"
   ],
   "note": "C32_infinite describes what is returned when the documented precondition (finite best cost) fails."
  },
  {
   "property": "C33",
   "status": "proved",
   "theorems": [
    "RUSure.Props.C33_constrained",
    "RUSure.Props.C33_infeasible"
   ],
   "note": "C33_infeasible: infeasible constraints give an assertion failure or a one-edge path, contradicting the docstring."
  },
  {
   "property": "C34",
   "status": "proved",
   "theorems": [
    "RUSure.Props.C34_scale_paths",
    "RUSure.Props.C34_scale_minimum"
   ],
   "note": "Positive factor, unpenalised costs, rational arithmetic."
  },
  {
   "property": "C35",
   "status": "proved",
   "theorems": [
    "RUSure.Props.C35_errors",
    "RUSure.Props.C35_make_system",
    "RUSure.Props.C35_joint_solutions"
   ],
   "note": ""
  },
  {
   "property": "C36",
   "status": "proved",
   "theorems": [
    "RUSure.Props.C36_lower_bound",
    "RUSure.Props.C36_min_marginals"
   ],
   "note": "All theorems on systems hold in every state reachable from make_system by the public operations."
  },
  {
   "property": "C37",
   "status": "proved",
   "theorems": [
    "RUSure.Props.C37_defined",
    "RUSure.Props.C37_averaging"
   ],
   "note": "Defined exactly when no subproblem without variables has to be skipped (C37_defined)."
  },
  {
   "property": "C38",
   "status": "proved",
   "theorems": [
    "RUSure.Props.C38_penalties",
    "RUSure.Props.C38_reparameterisation",
    "RUSure.Props.C38_unchanged"
   ],
   "note": "Sums equal the extra costs for values occurring in a finite-cost joint solution; elsewhere penalties may all be infinite."
  },
  {
   "property": "C39",
   "status": "proved",
   "theorems": [
    "RUSure.Props.C39_greedy",
    "RUSure.Props.C39_greedy_defined",
    "RUSure.Props.C39_assignment_pairs"
   ],
   "note": "With no variables the cost is NaN (none); succeeds whenever there are values and every DAG has a variable."
  },
  {
   "property": "C40",
   "status": "proved",
   "theorems": [
    "RUSure.Props.C40_certificate"
   ],
   "note": ""
  },
  {
   "property": "C41",
   "status": "proved",
   "theorems": [
    "RUSure.Props.C41_sweeps",
    "RUSure.Props.C41_order",
    "RUSure.Props.C41_terminates",
    "RUSure.Props.C41_at_most_one_variable"
   ],
   "note": "Termination needs positive tolerance and a finite-cost joint solution; with at most one variable nothing is averaged (C41_at_most_one_variable)."
  },
  {
   "property": "C42",
   "status": "proved",
   "theorems": [
    "RUSure.Props.C42_builds",
    "RUSure.Props.C42_grammar",
    "RUSure.Props.C42_accepts",
    "RUSure.Props.C42_packed"
   ],
   "note": "Both as a grammar and as a declarative description on the node list; also for the packed, pruned DAG."
  },
  {
   "property": "C43",
   "status": "proved",
   "theorems": [
    "RUSure.Props.C43_extract",
    "RUSure.Props.C43_accepted",
    "RUSure.Props.C43_text"
   ],
   "note": "C43_extract also describes every assignment that is not accepted."
  },
  {
   "property": "C44",
   "status": "proved",
   "theorems": [
    "RUSure.Props.C44_html",
    "RUSure.Props.C44_error",
    "RUSure.Props.C44_escape_injective"
   ],
   "note": ""
  },
  {
   "property": "C45",
   "status": "proved",
   "theorems": [
    "RUSure.Props.C45_constraint",
    "RUSure.Props.C45_constraint_packs",
    "RUSure.Props.C45_edit",
    "RUSure.Props.C45_edit_packs",
    "RUSure.Props.C45_selection",
    "RUSure.Props.C45_selection_packs"
   ],
   "note": "Proved for constraint, edit and selection DAGs. That packing succeeds is shown for edit DAGs with targets without control nodes and for selection DAGs of prototypes without early exits (which have no solutions otherwise, C50_exits)."
  },
  {
   "property": "C46",
   "status": "proved",
   "theorems": [
    "RUSure.Props.C46_builds",
    "RUSure.Props.C46_scripts",
    "RUSure.Props.C46_tokens",
    "RUSure.Props.C46_kept",
    "RUSure.Props.C46_alignments"
   ],
   "note": "Scripts are an independent grammar; C46_alignments restates them as: any region choice combined with any order and nesting respecting alignment."
  },
  {
   "property": "C47",
   "status": "proved",
   "theorems": [
    "RUSure.Props.C47_cost",
    "RUSure.Props.C47_confidence"
   ],
   "note": "Floats idealised as rationals."
  },
  {
   "property": "C48",
   "status": "proved",
   "theorems": [
    "RUSure.Props.C48_perfect",
    "RUSure.Props.C48_bound",
    "RUSure.Props.C48_derived"
   ],
   "note": "Also that nothing is cheaper, for all derived parameters."
  },
  {
   "property": "C49",
   "status": "proved",
   "theorems": [
    "RUSure.Props.C49_precision",
    "RUSure.Props.C49_correct_is_better",
    "RUSure.Props.C49_sensitivity_one_degenerate"
   ],
   "note": "Floats idealised as rationals; needs sensitivity < 1 (C49_sensitivity_one_degenerate shows why)."
  },
  {
   "property": "C50",
   "status": "proved",
   "theorems": [
    "RUSure.Props.C50_builds",
    "RUSure.Props.C50_paths",
    "RUSure.Props.C50_same",
    "RUSure.Props.C50_cost",
    "RUSure.Props.C50_exits",
    "RUSure.Props.C50_decisions",
    "RUSure.Props.C50_feasible"
   ],
   "note": "Paths are exactly the runs of an independent grammar of selections, whose rules give disjointness, contiguity and order. A prototype that starts with a region end raises (C50_builds)."
  },
  {
   "property": "C51",
   "status": "proved",
   "theorems": [
    "RUSure.Props.C51_context",
    "RUSure.Props.C51_calls",
    "RUSure.Props.C51_tree",
    "RUSure.Props.C51_text",
    "RUSure.Props.C51_baselines",
    "RUSure.Props.C51_programs",
    "RUSure.Props.C51_empty_decoration"
   ],
   "note": "C51_programs covers all parsed programs of every modelled language; C51_baselines needs the decorations in names to be white space, and C51_empty_decoration shows that this is needed."
  },
  {
   "property": "C52",
   "status": "proved",
   "theorems": [
    "RUSure.Props.C52_exit",
    "RUSure.Props.C52_characters",
    "RUSure.Props.C52_lines",
    "RUSure.Props.C52_token_prob",
    "RUSure.Props.C52_intellicode",
    "RUSure.Props.C52_max_average",
    "RUSure.Props.C52_kappa_zero",
    "RUSure.Props.C52_all",
    "RUSure.Props.C52_accepted",
    "RUSure.Props.C52_late_start"
   ],
   "note": "The exponential is a parameter (any non-negative function); log probabilities are rationals or minus infinity. C52_late_start: with region starts after the exit the decisions cannot be completed; the wrapper has no baselines in that case."
  },
  {
   "property": "C53",
   "status": "proved",
   "theorems": [
    "RUSure.Props.C53_state_list",
    "RUSure.Props.C53_first_appearance",
    "RUSure.Props.C53_initial_first"
   ],
   "note": ""
  },
  {
   "property": "C54",
   "status": "proved",
   "theorems": [
    "RUSure.Props.C54_minimum",
    "RUSure.Props.C54_succeeds",
    "RUSure.Props.C54_end_to_end",
    "RUSure.Props.C54_renumbered"
   ],
   "note": ""
  },
  {
   "property": "C55",
   "status": "proved",
   "theorems": [
    "RUSure.Props.C55_partial_commitment",
    "RUSure.Props.C55_only_forbids",
    "RUSure.Props.C55_no_assignment"
   ],
   "note": "Quantile computation is arbitrary."
  },
  {
   "property": "C56",
   "status": "proved",
   "theorems": [
    "RUSure.Props.C56_constrain",
    "RUSure.Props.C56_constrain_defined",
    "RUSure.Props.C56_break_symmetry"
   ],
   "note": ""
  },
  {
   "property": "C57",
   "status": "proved",
   "theorems": [
    "RUSure.Props.C57_decisions",
    "RUSure.Props.C57_feasible"
   ],
   "note": "For targets without control nodes, which is what the wrappers pass."
  },
  {
   "property": "C58",
   "status": "proved",
   "theorems": [
    "RUSure.Props.C58_direct",
    "RUSure.Props.C58_python",
    "RUSure.Props.C58_python_tree",
    "RUSure.Props.C58_python_lines",
    "RUSure.Props.C58_python_markers",
    "RUSure.Props.C58_python_empty",
    "RUSure.Props.C58_python_zero",
    "RUSure.Props.C58_braces_split"
   ],
   "note": "Empty Python text raises (C58_python_empty), a unit of zero raises (C58_python_zero). C58_braces_split is a finding: newlines split what is in braces."
  },
  {
   "property": "C59",
   "status": "proved",
   "theorems": [
    "RUSure.Props.C59_builds",
    "RUSure.Props.C59_no_targets",
    "RUSure.Props.C59_fewer_factors",
    "RUSure.Props.C59_cost",
    "RUSure.Props.C59_bound",
    "RUSure.Props.C59_greedy",
    "RUSure.Props.C59_terminates",
    "RUSure.Props.C59_selection_builds",
    "RUSure.Props.C59_selection_cost",
    "RUSure.Props.C59_selection_greedy",
    "RUSure.Props.C59_selection_bound",
    "RUSure.Props.C59_selection_terminates"
   ],
   "note": "Edit wrappers: C59_builds/cost/bound/greedy/terminates; call wrapper: C59_selection_*. C59_fewer_factors is a finding: targets beyond the scale factors are ignored; C59_no_targets: division by zero."
  },
  {
   "property": "C60",
   "status": "proved",
   "theorems": [
    "RUSure.Props.C60_all_decisions",
    "RUSure.Props.C60_all_recorded",
    "RUSure.Props.C60_samples",
    "RUSure.Props.C60_evaluation",
    "RUSure.Props.C60_unknown_decision",
    "RUSure.Props.C60_average",
    "RUSure.Props.C60_selection_all_decisions",
    "RUSure.Props.C60_selection_samples",
    "RUSure.Props.C60_selection_evaluation"
   ],
   "note": "Edit wrappers: C60_samples, C60_evaluation, C60_all_decisions, C60_average; call wrapper: C60_selection_*. C60_unknown_decision covers the KeyError."
  },
  {
   "property": "C61",
   "status": "proved",
   "theorems": [
    "RUSure.Props.C61_edits",
    "RUSure.Props.C61_index",
    "RUSure.Props.C61_empty_python",
    "RUSure.Props.C61_context",
    "RUSure.Props.C61_calls",
    "RUSure.Props.C61_prefix_baselines",
    "RUSure.Props.C61_call_baselines",
    "RUSure.Props.C61_certificate",
    "RUSure.Props.C61_average",
    "RUSure.Props.C61_groups"
   ],
   "note": "Edit wrappers: C61_edits, C61_prefix_baselines; call wrapper: C61_calls, C61_call_baselines. C61_index and C61_empty_python are the errors. With at most one decision the result is reported as empty. The baselines of the uncertainty region wrapper are in C64."
  },
  {
   "property": "C62",
   "status": "proved",
   "theorems": [
    "RUSure.Props.C62_groups",
    "RUSure.Props.C62_costs",
    "RUSure.Props.C62_prototype",
    "RUSure.Props.C62_result",
    "RUSure.Props.C62_result_text",
    "RUSure.Props.C62_html",
    "RUSure.Props.C62_reader",
    "RUSure.Props.C62_metrics",
    "RUSure.Props.C62_metric_names",
    "RUSure.Props.C62_pairwise",
    "RUSure.Props.C62_info",
    "RUSure.Props.C62_solution"
   ],
   "note": "The number formatting of `extract_edit_sequence_text` is not modelled, only its total. An edit sequence with an empty marker shows an empty span where editing starts."
  },
  {
   "property": "C63",
   "status": "proved",
   "theorems": [
    "RUSure.Props.C63_precision",
    "RUSure.Props.C63_tokens",
    "RUSure.Props.C63_groups",
    "RUSure.Props.C63_counts",
    "RUSure.Props.C63_selected",
    "RUSure.Props.C63_cost",
    "RUSure.Props.C63_info",
    "RUSure.Props.C63_pairwise"
   ],
   "note": "C63_info is for dictionaries with all decisions (as extraction returns them), so that the selected tokens are those of the suggestion. The sum of the costs of a group is exact (floats idealised as rationals)."
  },
  {
   "property": "C64",
   "status": "proved",
   "theorems": [
    "RUSure.Props.C64_tokens",
    "RUSure.Props.C64_bad_cutoff",
    "RUSure.Props.C64_assignment",
    "RUSure.Props.C64_baselines",
    "RUSure.Props.C64_bad_configuration"
   ],
   "note": "C64_tokens: which tokens; C64_assignment: the decisions for given tokens and their certificate; C64_baselines: the whole of build_baselines; C64_bad_cutoff and C64_bad_configuration are the errors. That a token ends up in a region is not guaranteed by the code in general (greedy extraction after a possibly interrupted dual ascent), hence the condition on the dual value. The exponential is a parameter, floats are rationals or minus infinity."
  },
  {
   "property": "C65",
   "status": "proved",
   "theorems": [
    "RUSure.Props.C65_brackets",
    "RUSure.Props.C65_statements",
    "RUSure.Props.C65_direct",
    "RUSure.Props.C65_python",
    "RUSure.Props.C65_preprocessor",
    "RUSure.Props.C65_forward",
    "RUSure.Props.C65_bad_cursor",
    "RUSure.Props.C65_python_empty",
    "RUSure.Props.C65_last_token",
    "RUSure.Props.C65_closing_last",
    "RUSure.Props.C65_lone_semicolon",
    "RUSure.Props.C65_all_splitters"
   ],
   "note": "C65_direct (simple, cpp, java, javascript), C65_python, C65_preprocessor: exact results; C65_brackets and C65_statements: the two functions on their own; C65_forward, C65_bad_cursor: all languages. C65_python_empty, C65_last_token, C65_closing_last, C65_lone_semicolon, C65_all_splitters are disagreements."
  },
  {
   "property": "C66",
   "status": "proved",
   "theorems": [
    "RUSure.Props.C66_docstrings",
    "RUSure.Props.C66_in_code",
    "RUSure.Props.C66_truncate",
    "RUSure.Props.C66_not_after_quotes",
    "RUSure.Props.C66_negative",
    "RUSure.Props.C66_usable",
    "RUSure.Props.C66_empty",
    "RUSure.Props.C66_not_found"
   ],
   "note": "C66_docstrings is exact, relative to the tree of the parse (whose meaning is C58); C66_in_code says what follows for the code. C66_empty, C66_not_found and C66_negative (results for negative cursors count from the end) are disagreements with what the documentation suggests."
  },
  {
   "property": "C67",
   "status": "proved",
   "theorems": [
    "RUSure.Props.C67_exact",
    "RUSure.Props.C67_prefixes",
    "RUSure.Props.C67_suffixes",
    "RUSure.Props.C67_no_drift",
    "RUSure.Props.C67_min_marginals",
    "RUSure.Props.C67_minimal_cost",
    "RUSure.Props.C67_extract",
    "RUSure.Props.C67_constrained",
    "RUSure.Props.C67_path_error",
    "RUSure.Props.C67_minimal_cost_error",
    "RUSure.Props.C67_extract_error",
    "RUSure.Props.C67_float64",
    "RUSure.Props.C67_strategies_differ"
   ],
   "note": "C67_exact links to the exact model of C29-C33; C67_prefixes, C67_suffixes, C67_no_drift, C67_min_marginals, C67_minimal_cost, C67_extract, C67_constrained hold for any monotone rounding; C67_path_error, C67_minimal_cost_error, C67_extract_error are the error bounds and C67_float64 shows that float64 meets their hypothesis. C67_strategies_differ: in float64 the strategies of compute_minimal_cost may return different numbers. Overflow to -inf and NaN are not modelled."
  },
  {
   "property": "C68",
   "status": "proved",
   "theorems": [
    "RUSure.Props.C68_exact",
    "RUSure.Props.C68_bound",
    "RUSure.Props.C68_solve",
    "RUSure.Props.C68_float64",
    "RUSure.Props.C68_shares",
    "RUSure.Props.C68_shares_weighted",
    "RUSure.Props.C68_exceeds"
   ],
   "note": "C68_exact links to the exact model of C36-C41; C68_bound is the error bound for any sequence of averaging steps, C68_solve shows that the sweeps are such a sequence; C68_float64 and C68_shares show that float64 meets the hypotheses; C68_exceeds: a float64 bound above the cost of a solution. That costs and penalties stay in range is a hypothesis (RunInRange); constrain_system and break_symmetry_randomly are in C85, greedy_extract is in C69. NaN and -inf are not modelled."
  },
  {
   "property": "C69",
   "status": "proved",
   "theorems": [
    "RUSure.Props.C69_exact",
    "RUSure.Props.C69_greedy",
    "RUSure.Props.C69_defined",
    "RUSure.Props.C69_certificate",
    "RUSure.Props.C69_differs"
   ],
   "note": "C69_exact links to the exact model of C39; C69_greedy: the error bound in both directions; C69_certificate combines it with C68_bound; C69_defined: when extraction succeeds; C69_differs: a float64 cost above that of a solution. That costs and penalties stay in range is a hypothesis (RunInRange, InRange), as in C68."
  },
  {
   "property": "C70",
   "status": "proved",
   "theorems": [
    "RUSure.Props.C70_history",
    "RUSure.Props.C70_untouched",
    "RUSure.Props.C70_clone",
    "RUSure.Props.C70_greedy"
   ],
   "note": "C70_history: any program in memory gives what it gives on values; C70_untouched, C70_clone, C70_greedy: what this means for a system nobody operates on, for clones and for extraction. After an exception there is no memory in the model, so what a failed operation leaves behind is not covered. Temporary arrays are values; read-only arrays (the DAGs, index maps, proportions) are shared by clones and are values too."
  },
  {
   "property": "C71",
   "status": "proved",
   "theorems": [
    "RUSure.Props.C71_constraint_same",
    "RUSure.Props.C71_constraint",
    "RUSure.Props.C71_edit_same",
    "RUSure.Props.C71_edit"
   ],
   "note": "C71_constraint_same, C71_edit_same: the builders over storages succeed and build the DAGs of the trees; C71_constraint, C71_edit: what these DAGs accept and cost."
  },
  {
   "property": "C72",
   "status": "proved",
   "theorems": [
    "RUSure.Props.C72_exact",
    "RUSure.Props.C72_builds",
    "RUSure.Props.C72_bound",
    "RUSure.Props.C72_greedy",
    "RUSure.Props.C72_solve",
    "RUSure.Props.C72_parts",
    "RUSure.Props.C72_selection_builds",
    "RUSure.Props.C72_selection_solve",
    "RUSure.Props.C72_selection_parts",
    "RUSure.Props.C72_left_sum",
    "RUSure.Props.C72_factors",
    "RUSure.Props.C72_shares",
    "RUSure.Props.C72_float64",
    "RUSure.Props.C72_selection_float64",
    "RUSure.Props.C72_no_failure",
    "RUSure.Props.C72_size",
    "RUSure.Props.C72_range",
    "RUSure.Props.C72_errors",
    "RUSure.Props.C72_inputs",
    "RUSure.Props.C72_selection_inputs"
   ],
   "note": "C72_exact links to the exact model of C59; C72_builds, C72_no_failure: nothing fails; C72_bound, C72_greedy, C72_solve: the errors in any accurate arithmetic in terms of the sizes that occur; C72_float64: in float64, from bounds on sizes and costs of the parts; C72_parts, C72_size, C72_range, C72_errors, C72_inputs: from bounds on the inputs alone; C72_selection_*: the same for selections. The error bound of C72_inputs is crude: it grows like (16*N*n)^T with T averaging steps, because penalties are only known to grow by a constant factor per step; C72_solve, with the sizes that occur, does not depend on T. Costs of edits before scaling are assumed to be float64 numbers; that the solver stops in float64 is C84."
  },
  {
   "property": "C73",
   "status": "proved",
   "theorems": [
    "RUSure.Props.C73_shown",
    "RUSure.Props.C73_total",
    "RUSure.Props.C73_balanced",
    "RUSure.Props.C73_constraint",
    "RUSure.Props.C73_constraint_texts",
    "RUSure.Props.C73_edit",
    "RUSure.Props.C73_edit_extras",
    "RUSure.Props.C73_selection",
    "RUSure.Props.C73_selection_texts",
    "RUSure.Props.C73_view_box",
    "RUSure.Props.C73_calls_total",
    "RUSure.Props.C73_well_formed",
    "RUSure.Props.C73_texts_written",
    "RUSure.Props.C73_hover_written",
    "RUSure.Props.C73_document",
    "RUSure.Props.C73_in_view",
    "RUSure.Props.C73_up_is_below",
    "RUSure.Props.C73_level_iff"
   ],
   "note": "C73_shown, C73_total, C73_balanced: any annotator; C73_constraint, C73_constraint_texts, C73_edit, C73_edit_extras, C73_selection, C73_selection_texts: the three layouts; C73_document, C73_in_view: documents of DAGs; C73_view_box, C73_calls_total, C73_well_formed, C73_texts_written, C73_hover_written: any calls of the SVG renderer; C73_up_is_below, C73_level_iff: two disagreements."
  },
  {
   "property": "C74",
   "status": "proved",
   "theorems": [
    "RUSure.Props.C74_repr",
    "RUSure.Props.C74_lines",
    "RUSure.Props.C74_one_line_each",
    "RUSure.Props.C74_injective",
    "RUSure.Props.C74_ambiguous"
   ],
   "note": "C74_lines, C74_one_line_each: any sequence; C74_repr: literals read back; C74_injective: sequences with texts of at most 80 characters; C74_ambiguous: longer tokens are not told apart."
  },
  {
   "property": "C75",
   "status": "proved",
   "theorems": [
    "RUSure.Props.C75_strip",
    "RUSure.Props.C75_reserved",
    "RUSure.Props.C75_annotators",
    "RUSure.Props.C75_same_dag",
    "RUSure.Props.C75_off_again",
    "RUSure.Props.C75_traced",
    "RUSure.Props.C75_nested",
    "RUSure.Props.C75_metadata_unused"
   ],
   "note": "C75_strip, C75_reserved: single edges; C75_same_dag, C75_off_again, C75_traced: programs; C75_nested: blocks do not nest; C75_annotators, C75_metadata_unused: users of metadata."
  },
  {
   "property": "C76",
   "status": "proved",
   "theorems": [
    "RUSure.Props.C76_paths",
    "RUSure.Props.C76_cost"
   ],
   "note": "C76_paths: the paths; C76_cost: the costs of assignments."
  },
  {
   "property": "C77",
   "status": "proved",
   "theorems": [
    "RUSure.Props.C77_match",
    "RUSure.Props.C77_copy",
    "RUSure.Props.C77_split",
    "RUSure.Props.C77_valid",
    "RUSure.Props.C77_parents_checked"
   ],
   "note": "C77_match: bracket matching; C77_copy: copies; C77_split: splitting; C77_valid and C77_parents_checked: the check of trees and of any nodes."
  },
  {
   "property": "C78",
   "status": "proved",
   "theorems": [
    "RUSure.Props.C78_nested",
    "RUSure.Props.C78_balanced"
   ],
   "note": "C78_nested: trees in which only the inside of a bracket pair is empty; C78_balanced: match and split of a balanced stream."
  },
  {
   "property": "C79",
   "status": "proved",
   "theorems": [
    "RUSure.Props.C79_edit_report",
    "RUSure.Props.C79_edit_html",
    "RUSure.Props.C79_call_html",
    "RUSure.Props.C79_call_report",
    "RUSure.Props.C79_info",
    "RUSure.Props.C79_combine",
    "RUSure.Props.C79_combine_calls",
    "RUSure.Props.C79_edit",
    "RUSure.Props.C79_selection",
    "RUSure.Props.C79_edit_greedy",
    "RUSure.Props.C79_edit_sound",
    "RUSure.Props.C79_selection_sound"
   ],
   "note": "C79_edit, C79_selection: the same system, if no evicted state is requested again; C79_edit_greedy, C79_info, C79_combine*, C79_*_report, C79_*_html: what follows for suggestions, reports and HTML; *_sound: for all hash functions."
  },
  {
   "property": "C80",
   "status": "proved",
   "theorems": [
    "RUSure.Props.C80_tokens",
    "RUSure.Props.C80_token_probs",
    "RUSure.Props.C80_edits",
    "RUSure.Props.C80_calls",
    "RUSure.Props.C80_default"
   ],
   "note": "C80_edits, C80_calls: all views after combine; C80_default: the same with renumbered states; C80_tokens, C80_token_probs: token probabilities. The exponential, and printing of numbers, are parameters."
  },
  {
   "property": "C81",
   "status": "proved",
   "theorems": [
    "RUSure.Props.C81_spread",
    "RUSure.Props.C81_total",
    "RUSure.Props.C81_drawn",
    "RUSure.Props.C81_apart",
    "RUSure.Props.C81_straight"
   ],
   "note": "C81_total: when there is a drawing; C81_drawn: what is drawn for an edge; C81_apart, C81_straight: where lines start and run; C81_spread: the spread numbers. Sigmoid, texts and hashes are parameters."
  },
  {
   "property": "C82",
   "status": "proved",
   "theorems": [
    "RUSure.Props.C82_lines",
    "RUSure.Props.C82_mask",
    "RUSure.Props.C82_mask_zero",
    "RUSure.Props.C82_injective"
   ],
   "note": "C82_lines: the lines; C82_mask: the tokens of a node; C82_injective: the tree can be read back; C82_mask_zero: a node that ends at 0 is shown as if it covered one token. White space and printable characters are parameters."
  },
  {
   "property": "C83",
   "status": "proved",
   "theorems": [
    "RUSure.Props.C83_edits",
    "RUSure.Props.C83_calls"
   ],
   "note": "C83_edits: wrappers for edit distances; C83_calls: the call wrapper. Costs are negated utilities; the clock is a parameter."
  },
  {
   "property": "C84",
   "status": "proved",
   "theorems": [
    "RUSure.Props.C84_steps",
    "RUSure.Props.C84_stops"
   ],
   "note": "C84_steps: consecutive bounds and their size; C84_stops: the loop ends. The sizes of the costs and penalties that occur in the run are a hypothesis (RunInRange), as in C68; the crude bounds of C72 on these sizes grow with the number of steps, so C84_stops cannot be combined with them. With a tolerance below the rounding error nothing is claimed. The first round of the loop always counts as an improvement, and one more round is needed to see that nothing improves."
  },
  {
   "property": "C85",
   "status": "proved",
   "theorems": [
    "RUSure.Props.C85_exact",
    "RUSure.Props.C85_float64",
    "RUSure.Props.C85_constrain",
    "RUSure.Props.C85_noise",
    "RUSure.Props.C85_bound",
    "RUSure.Props.C85_finite",
    "RUSure.Props.C85_greedy",
    "RUSure.Props.C85_steps",
    "RUSure.Props.C85_stops"
   ],
   "note": "C85_exact links to C56; C85_constrain, C85_noise: what joint solutions cost; C85_bound, C85_greedy, C85_steps, C85_stops: the guarantees of C68, C69 and C84 for such systems (the size of the penalty or noise is part of the error, as X); C85_finite shows when the hypothesis of C85_greedy holds; C85_float64: float64 meets the hypotheses. Constraints and noise are added to a new system, not one after the other or during the search. With an infinite penalty C85_greedy does not apply, the rest does."
  },
  {
   "property": "C86",
   "status": "proved",
   "theorems": [
    "RUSure.Props.C86_range",
    "RUSure.Props.C86_defined",
    "RUSure.Props.C86_certificate",
    "RUSure.Props.C86_shares",
    "RUSure.Props.C86_float64"
   ],
   "note": "C86_range bounds all numbers of a run by preparedSize; C86_shares: shares of the weights in float64; C86_defined: nothing fails; C86_certificate: optimality up to the gap for any accurate arithmetic; C86_float64 puts them together. The range formula grows by a constant factor per step, so it is at most 2^1023 for some hundred steps (100 in the example). With an infinite penalty only C86_range, C86_defined and C85_bound apply."
  },
  {
   "property": "C87",
   "status": "proved",
   "theorems": [
    "RUSure.Props.C87_ends",
    "RUSure.Props.C87_size",
    "RUSure.Props.C87_exact",
    "RUSure.Props.C87_assignment"
   ],
   "note": "C87_assignment: the decisions, their cost and the certificate; C87_ends: the solver ends for a large tolerance; C87_size: explicit bounds of the formula; C87_exact: with exact arithmetic the function is that of C64. The condition on the number of steps allows some dozen steps for DAGs of a few thousand states, and fewer for larger ones, because the formula allows penalties to grow in every step."
  },
  {
   "property": "C88",
   "status": "proved",
   "theorems": [
    "RUSure.Props.C88_exact",
    "RUSure.Props.C88_float64",
    "RUSure.Props.C88_loses",
    "RUSure.Props.C88_only_forbids",
    "RUSure.Props.C88_keeps_value",
    "RUSure.Props.C88_defined",
    "RUSure.Props.C88_keeps"
   ],
   "note": "C88_exact: with exact arithmetic the function is that of C55; C88_defined, C88_only_forbids, C88_keeps_value (with C88_float64 for float64) and C88_keeps: the parts of the statement; C88_loses: the concrete loss of an optimum. The quantile may be any function of the min-marginals, as in C55."
  },
  {
   "property": "C89",
   "status": "proved",
   "theorems": [
    "RUSure.Props.C89_above",
    "RUSure.Props.C89_reached",
    "RUSure.Props.C89_number",
    "RUSure.Props.C89_keeps"
   ],
   "note": "C89_above, C89_reached: the two counts; C89_number: when the threshold is a number; C89_keeps: what keeps its cost. The level and the interpolation are computed in exact arithmetic."
  }
 ]
}
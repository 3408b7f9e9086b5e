{
 "claims": [
  {
   "property": "C01",
   "status": "proved",
   "theorems": [
    "Scallop.c01_from_vec",
    "Scallop.c01_from_vec_tuples"
   ],
   "note": "In-place compaction loop, never panics."
  },
  {
   "property": "C02",
   "status": "proved",
   "theorems": [
    "Scallop.c02_merge",
    "Scallop.c02_merge_any"
   ],
   "note": ""
  },
  {
   "property": "C03",
   "status": "proved",
   "theorems": [
    "Scallop.c03_insert",
    "Scallop.c03_insert_unchecked"
   ],
   "note": ""
  },
  {
   "property": "C04",
   "status": "proved",
   "theorems": [
    "Scallop.c04_retain"
   ],
   "note": ""
  },
  {
   "property": "C05",
   "status": "partial",
   "theorems": [
    "Scallop.c05_gallop_index_partial",
    "Scallop.c05_gallop_index_false"
   ],
   "note": "Holds at start position 0; false for start positions > 0 as used by the schedulers: the guard looks at slice[0] (bug in the code)."
  },
  {
   "property": "C06",
   "status": "proved",
   "theorems": [
    "Scallop.c06_changed_lfp",
    "Scallop.c06_changed_any",
    "Scallop.reachable_wf"
   ],
   "note": "Set level; tags are C51."
  },
  {
   "property": "C07",
   "status": "proved",
   "theorems": [
    "Scallop.c07_complete"
   ],
   "note": ""
  },
  {
   "property": "C08",
   "status": "proved",
   "theorems": [
    "Scallop.c08_dfs"
   ],
   "note": ""
  },
  {
   "property": "C09",
   "status": "proved",
   "theorems": [
    "Scallop.c09_astar",
    "Scallop.c09_beam",
    "Scallop.c09_beam_zero_stuck"
   ],
   "note": "Beam size 0 schedules nothing and stops (witness theorem)."
  },
  {
   "property": "C10",
   "status": "proved",
   "theorems": [
    "Scallop.c10_join"
   ],
   "note": ""
  },
  {
   "property": "C11",
   "status": "proved",
   "theorems": [
    "Scallop.c11_intersect",
    "Scallop.c11_duplicates_lost"
   ],
   "note": "Collections are duplicate free; for operands sorted in place that repeat a tuple, contributions are lost (witness theorem)."
  },
  {
   "property": "C12",
   "status": "proved",
   "theorems": [
    "Scallop.c12_product"
   ],
   "note": ""
  },
  {
   "property": "C13",
   "status": "proved",
   "theorems": [
    "Scallop.c13_difference",
    "Scallop.c13_difference_mem"
   ],
   "note": ""
  },
  {
   "property": "C14",
   "status": "proved",
   "theorems": [
    "Scallop.c14_antijoin",
    "Scallop.c14_antijoin_no_negation"
   ],
   "note": ""
  },
  {
   "property": "C15",
   "status": "proved",
   "theorems": [
    "Scallop.c15_semi_naive",
    "Scallop.c15_semi_naive_negation",
    "Scallop.c15_join_over_difference_incomplete"
   ],
   "note": "Whole dataflow trees, bags with tags. Differences below joins are incomplete (witness); the compiler does not emit that shape."
  },
  {
   "property": "C16",
   "status": "proved",
   "theorems": [
    "Scallop.c16_least_fixpoint",
    "Scallop.c16_sound",
    "Scallop.c16_no_panic"
   ],
   "note": "All schedulers; hypothesis: early discarding drops no tag (always true of unit provenance; soundness holds without it)."
  },
  {
   "property": "C17",
   "status": "partial",
   "theorems": [
    "Scallop.c17_terminates_partial",
    "Scallop.c17_terminates_small_partial",
    "Scallop.c17_terminates_false"
   ],
   "note": "Proved when no scan gallops (in particular relations of at most 8 tuples). Refuted in general: a program with 22 derivable tuples that never terminates, because the galloping search skips its starting index."
  },
  {
   "property": "C18",
   "status": "proved",
   "theorems": [
    "Scallop.c18_iteration_limit",
    "Scallop.c18_dfs_limit_panics"
   ],
   "note": "Second theorem: with the depth-first scheduler completing after a limit panics (finding)."
  },
  {
   "property": "C19",
   "status": "proved",
   "theorems": [
    "Scallop.c19_partition",
    "Scallop.c19_order",
    "Scallop.c19_rules",
    "Scallop.c19_recursive"
   ],
   "note": "kosaraju_scc is taken by its contract (the strongly connected components, in any order)"
  },
  {
   "property": "C20",
   "status": "proved",
   "theorems": [
    "Scallop.c20_rejects",
    "Scallop.c20_deterministic"
   ],
   "note": ""
  },
  {
   "property": "C21",
   "status": "proved",
   "theorems": [
    "Scallop.c21_eval"
   ],
   "note": "total correctness of building (no panic) and evaluation, all vtree kinds, with and without garbage collection"
  },
  {
   "property": "C22",
   "status": "proved",
   "theorems": [
    "Scallop.c22_count",
    "Scallop.c22_gradient"
   ],
   "note": "over any commutative ring; gradient over any ordered field"
  },
  {
   "property": "C23",
   "status": "proved",
   "theorems": [
    "Scallop.c23_leaves"
   ],
   "note": ""
  },
  {
   "property": "C24",
   "status": "proved",
   "theorems": [
    "Scallop.c24_semiring",
    "Scallop.c24_lattice",
    "Scallop.c24_negation"
   ],
   "note": "Over an ordered field (no rounding)."
  },
  {
   "property": "C25",
   "status": "proved",
   "theorems": [
    "Scallop.c25_boolean",
    "Scallop.c25_natural",
    "Scallop.c25_tropical",
    "Scallop.c25_order_irrelevant",
    "Scallop.c25_add_mult_prob_not_distributive"
   ],
   "note": "The last theorem shows add-mult-prob (which clamps) is not a semiring."
  },
  {
   "property": "C26",
   "status": "proved",
   "theorems": [
    "Scallop.c26_add",
    "Scallop.c26_mult",
    "Scallop.c26_constants",
    "Scallop.c26_history",
    "Scallop.c26_semiring"
   ],
   "note": "Also whole histories with tagging interleaved."
  },
  {
   "property": "C27",
   "status": "proved",
   "theorems": [
    "Scallop.c27_add",
    "Scallop.c27_mult",
    "Scallop.c27_history",
    "Scallop.c27_at_most_k"
   ],
   "note": "Histories: implication for histories without negation."
  },
  {
   "property": "C28",
   "status": "proved",
   "theorems": [
    "Scallop.c28_negate",
    "Scallop.c28_terminates",
    "Scallop.c28_negate_not_best"
   ],
   "note": "The last theorem is a witness that the conjunctions kept are not the most probable ones."
  },
  {
   "property": "C29",
   "status": "proved",
   "theorems": [
    "Scallop.c29_merge",
    "Scallop.c29_merge_fails",
    "Scallop.c29_valid",
    "Scallop.c29_conflict",
    "Scallop.c29_no_panic"
   ],
   "note": ""
  },
  {
   "property": "C30",
   "status": "partial",
   "theorems": [
    "Scallop.Back.c30_partial",
    "Scallop.Back.c30_panics",
    "Scallop.Back.c30_entity_lost",
    "Scallop.Back.c30_symbol_panic",
    "Scallop.Back.c30_nan"
   ],
   "note": "exact for every rule that creates no entity from constants only, assuming exact float equality; the full claim is refuted (entity lost, symbols compared at compile time panic, NaN)"
  },
  {
   "property": "C31",
   "status": "partial",
   "theorems": [
    "Scallop.Back.c31_partial",
    "Scallop.Back.c31_complete",
    "Scallop.Back.c31_constraint_lost"
   ],
   "note": "never loses a derivation; exact when no assigned variable is equated with a constant; the full claim is refuted by a witness"
  },
  {
   "property": "C32",
   "status": "partial",
   "theorems": [
    "Scallop.Back.c32_complete",
    "Scallop.Back.c32_partial",
    "Scallop.Back.c32_chain_broken"
   ],
   "note": "never loses a derivation; exact when equalities share no variables; the full claim is refuted by a chain of two equalities"
  },
  {
   "property": "C33",
   "status": "partial",
   "theorems": [
    "Scallop.c33_partial",
    "Scallop.c33_compose",
    "Scallop.c33_normal",
    "Scallop.c33_nested_access",
    "Scallop.c33_undefined_column"
   ],
   "note": "exact when outer projections read whole components and inner ones are never undefined; both conditions are necessary (two refutations)"
  },
  {
   "property": "C34",
   "status": "partial",
   "theorems": [
    "Scallop.Front.c34_add_partial",
    "Scallop.Front.c34_sub_partial",
    "Scallop.Front.c34_sub_second_operand",
    "Scallop.Front.c34_sub_false",
    "Scallop.Front.c34_saturation",
    "Scallop.Front.c34_strings"
   ],
   "note": "right for additions and for the first operand of subtractions when nothing saturates; refuted for the second operand of subtractions, for saturating arithmetic and for strings"
  },
  {
   "property": "C35",
   "status": "proved",
   "theorems": [
    "Scallop.Front.c35",
    "Scallop.Front.c35_no_panic"
   ],
   "note": ""
  },
  {
   "property": "C36",
   "status": "proved",
   "theorems": [
    "Scallop.Front.c36_negate",
    "Scallop.Front.c36_negate_undefined",
    "Scallop.Front.c36",
    "Scallop.Front.c36_terminates",
    "Scallop.Front.c36_accepts",
    "Scallop.Front.c36_constraint_panics"
   ],
   "note": "negating a constraint panics (last theorem): the claim is about formulas the compiler accepts"
  },
  {
   "property": "C37",
   "status": "proved",
   "theorems": [
    "Scallop.Agg.c37_count",
    "Scallop.Agg.c37_count_sound",
    "Scallop.Agg.c37_sum_prod",
    "Scallop.Agg.c37_sum_prod_sound",
    "Scallop.Agg.c37_no_panic",
    "Scallop.Agg.c37_discrete",
    "Scallop.Agg.c37_sum_prod_bool",
    "Scallop.Agg.minMax_exactIn",
    "Scallop.Agg.addMult_exactIn",
    "Scallop.Agg.topK_soundIn"
   ],
   "note": "exact for provenances whose tags determine truth exactly (fuzzy tags other than 1/2, 0/1 probabilities), sound for top-k proofs"
  },
  {
   "property": "C38",
   "status": "proved",
   "theorems": [
    "Scallop.Agg.c38_exists",
    "Scallop.Agg.c38_exists_sound",
    "Scallop.Agg.c38_discrete"
   ],
   "note": ""
  },
  {
   "property": "C39",
   "status": "partial",
   "theorems": [
    "Scallop.Agg.c39_min_max",
    "Scallop.Agg.c39_min_max_sound",
    "Scallop.Agg.c39_arg_sound",
    "Scallop.Agg.c39_arg_partial",
    "Scallop.Agg.c39_discrete",
    "Scallop.Agg.c39_discrete_plain",
    "Scallop.Agg.c39_bool",
    "Scallop.Agg.c39_ties_lost",
    "Scallop.Agg.c39_no_negation"
   ],
   "note": "ties are lost by argmin/argmax of the code except at the smallest value (refuted); everything else proved"
  },
  {
   "property": "C40",
   "status": "proved",
   "theorems": [
    "Scallop.Agg.c40_top_k",
    "Scallop.Agg.c40_aggregate"
   ],
   "note": "BinaryHeap::pop is taken by its contract"
  },
  {
   "property": "C41",
   "status": "proved",
   "theorems": [
    "Scallop.Agg.c41_range"
   ],
   "note": ""
  },
  {
   "property": "C42",
   "status": "proved",
   "theorems": [
    "Scallop.c42_unique",
    "Scallop.c42_increasing"
   ],
   "note": "No wrap-around of the counter is modelled."
  },
  {
   "property": "C43",
   "status": "partial",
   "theorems": [
    "Scallop.Dur.c43_partial",
    "Scallop.Dur.c43_number",
    "Scallop.Dur.c43_minutes_months",
    "Scallop.Dur.c43_units",
    "Scallop.Dur.c43_names",
    "Scallop.Dur.c43_negative_decimal",
    "Scallop.Dur.c43_overflow_panics"
   ],
   "note": "exact unless a number with decimals is negative (refuted); at the end of the range of durations the parser panics instead of reporting an error; the regular expressions are not modelled"
  },
  {
   "property": "C44",
   "status": "proved",
   "theorems": [
    "Scallop.c44_gradient",
    "Scallop.c44_gradient_dense",
    "Scallop.c44_add_mult_prob",
    "Scallop.c44_max_min",
    "Scallop.c44_clamp_gradient"
   ],
   "note": "Derivative = Mathlib's formal partial derivative of the polynomial. The last theorem shows that clamping in add-mult-prob does not adjust the gradient."
  },
  {
   "property": "C45",
   "status": "partial",
   "theorems": [
    "Scallop.c45_geometric_partial",
    "Scallop.c45_log_batches",
    "Scallop.c45_geometric_false"
   ],
   "note": "Holds for provenances whose tags always saturate; false otherwise (witness reachable state)."
  },
  {
   "property": "C46",
   "status": "proved",
   "theorems": [
    "Scallop.c46_find"
   ],
   "note": ""
  },
  {
   "property": "C47",
   "status": "proved",
   "theorems": [
    "Scallop.Ram.c47",
    "Scallop.Ram.c47_stop",
    "Scallop.Ram.c47_terminates",
    "Scallop.Ram.c47_second_definition_lost"
   ],
   "note": "for temporaries with one definition each, as the compiler creates them (necessary: last theorem). Operators that are not functions of the relation states (random sampling, fresh exclusion identifiers) are outside the model"
  },
  {
   "property": "C48",
   "status": "proved",
   "theorems": [
    "Scallop.Plan.c48_readback",
    "Scallop.Plan.c48_injective",
    "Scallop.Plan.c48_order_preserving",
    "Scallop.Plan.c48_repetitions"
   ],
   "note": "the order is preserved weakly: columns left out can make tuples equal (last theorem)"
  },
  {
   "property": "C49",
   "status": "proved",
   "theorems": [
    "Scallop.c49_proofs",
    "Scallop.c49_top_k"
   ],
   "note": ""
  },
  {
   "property": "C50",
   "status": "proved",
   "theorems": [
    "Scallop.c50_componentwise",
    "Scallop.c50_semiring",
    "Scallop.c50_discard"
   ],
   "note": ""
  },
  {
   "property": "C51",
   "status": "partial",
   "theorems": [
    "Scallop.c51_unique_tags_partial",
    "Scallop.c51_unique_tags_false"
   ],
   "note": "False when the pending batch is more than 4 times longer than a stable batch (galloping bug C05)."
  },
  {
   "property": "C52",
   "status": "partial",
   "theorems": [
    "Scallop.c52_add_sound_partial",
    "Scallop.c52_mult_unsound"
   ],
   "note": "False for products: the code calls `or` where it should conjoin (refuted for every k >= 2 and every sample). Proved for sums."
  },
  {
   "property": "C53",
   "status": "proved",
   "theorems": [
    "Scallop.c53_dnf",
    "Scallop.c53_topk_output",
    "Scallop.c53_topk_lower_bound"
   ],
   "note": ""
  },
  {
   "property": "C54",
   "status": "partial",
   "theorems": [
    "Scallop.c54_refuted",
    "Scallop.c54_no_exclusions_partial",
    "Scallop.c54_actual"
   ],
   "note": "false in the code: exclusion constraints are disjoined to the formula"
  },
  {
   "property": "C55",
   "status": "proved",
   "theorems": [
    "Scallop.c55_remove_unused"
   ],
   "note": "has_path_connecting is taken by its contract"
  },
  {
   "property": "C56",
   "status": "partial",
   "theorems": [
    "Scallop.Agg.c56_avg_partial",
    "Scallop.Agg.c56_avg_panics",
    "Scallop.Agg.c56_avg_count_overflow"
   ],
   "note": "the multi-world average of integers always divides by zero in the code"
  },
  {
   "property": "C57",
   "status": "proved",
   "theorems": [
    "Scallop.Agg.c57_count_min_max",
    "Scallop.Agg.c57_counts"
   ],
   "note": ""
  },
  {
   "property": "C58",
   "status": "proved",
   "theorems": [
    "Scallop.Agg.c58_implicit",
    "Scallop.Agg.c58_join",
    "Scallop.Agg.c58_single"
   ],
   "note": ""
  },
  {
   "property": "C59",
   "status": "proved",
   "theorems": [
    "Scallop.Agg.c59_enumerate",
    "Scallop.Agg.c59_rank",
    "Scallop.Agg.c59_sort"
   ],
   "note": ""
  },
  {
   "property": "C60",
   "status": "proved",
   "theorems": [
    "Scallop.Back.c60_terminates",
    "Scallop.Back.c60_complete",
    "Scallop.Back.c60_partial",
    "Scallop.Back.c60_true_false",
    "Scallop.Back.c60_empty_rule"
   ],
   "note": "c60_partial is the additional exactness statement for plain rules"
  },
  {
   "property": "C61",
   "status": "proved",
   "theorems": [
    "Scallop.c61_boolean",
    "Scallop.c61_boolean_minus",
    "Scallop.c61_natural",
    "Scallop.c61_natural_count",
    "Scallop.c61_tropical",
    "Scallop.c61_min_max",
    "Scallop.c61_max_mult",
    "Scallop.c61_real_tropical",
    "Scallop.c61_real_tropical_semiring",
    "Scallop.c61_tropical_proofs_number"
   ],
   "note": "arithmetic without overflow or rounding"
  },
  {
   "property": "C62",
   "status": "partial",
   "theorems": [
    "Scallop.c62_discard_zero",
    "Scallop.c62_discard_diff",
    "Scallop.c62_discard_proofs",
    "Scallop.c62_tropical_proofs_refuted"
   ],
   "note": "false for real tropical proofs, which drops every fact derived without a variable; proved for the others listed in the theorems"
  },
  {
   "property": "C63",
   "status": "proved",
   "theorems": [
    "Scallop.c63_noisy_or",
    "Scallop.c63_noisy_or_gradient",
    "Scallop.c63_noisy_or_not_distributive",
    "Scallop.c63_min_max_derivative"
   ],
   "note": ""
  },
  {
   "property": "C64",
   "status": "proved",
   "theorems": [
    "Scallop.Front.c64_add_sub",
    "Scallop.Front.c64_mul",
    "Scallop.Front.c64_div_mod",
    "Scallop.Front.c64_float_div",
    "Scallop.Front.c64_div_defined",
    "Scallop.Front.c64_div_panics",
    "Scallop.Front.c64_compare",
    "Scallop.Front.c64_other",
    "Scallop.Front.c64_no_mixing",
    "Scallop.Front.c64_closed",
    "Scallop.Front.c64_add_not_associative"
   ],
   "note": "floating point is a parameter of the model"
  },
  {
   "property": "C65",
   "status": "partial",
   "theorems": [
    "Scallop.Front.c65_partial"
   ],
   "note": "for bodies in which forall applies to an implication, negated arguments have values, patterns are not nested, inclusive ranges end below the largest integer; the extra inverted assignments are left out (C34)"
  },
  {
   "property": "C66",
   "status": "partial",
   "theorems": [
    "Scallop.Front.c66_partial",
    "Scallop.Front.c66_two_patterns"
   ],
   "note": "proved for one pattern of any depth; refuted for two nested patterns on one variable in one body"
  },
  {
   "property": "C67",
   "status": "proved",
   "theorems": [
    "Scallop.Front.c67",
    "Scallop.Front.c67_nested_wildcard"
   ],
   "note": "without the inverted assignments (C34); wildcards nested in arguments of negated atoms excluded, for the reason given by the second theorem"
  },
  {
   "property": "C68",
   "status": "partial",
   "theorems": [
    "Scallop.Front.c68_partial",
    "Scallop.Front.c68_inclusive_max"
   ],
   "note": "false when an inclusive range ends at the largest integer"
  },
  {
   "property": "C69",
   "status": "partial",
   "theorems": [
    "Scallop.Front.c69_partial",
    "Scallop.Front.c69_sugar_panics"
   ],
   "note": "refuted for bodies with sugar: the compiler panics"
  },
  {
   "property": "C70",
   "status": "proved",
   "theorems": [
    "Scallop.Plan.c70_search",
    "Scallop.Plan.c70_plan"
   ],
   "note": "for rules without foreign predicates; the powerset the search enumerates makes it exponential in the number of atoms"
  },
  {
   "property": "C71",
   "status": "partial",
   "theorems": [
    "Scallop.Plan.c71_partial",
    "Scallop.Plan.c71_bound_assign_refuted",
    "Scallop.Plan.c71_two_assigns_refuted",
    "Scallop.Plan.c71_unused_assign_refuted",
    "Scallop.Plan.c71_new_constraint_refuted",
    "Scallop.Plan.c71_negated_foreign_refuted",
    "Scallop.Plan.c71_stale_variables_refuted",
    "Scallop.Plan.c71_foreign_assign_refuted",
    "Scallop.Plan.c71_chained_new_refuted",
    "Scallop.Plan.c71_foreign_input_refuted"
   ],
   "note": "proved under the conditions RuleOk and up to assignments to variables with another source; each condition left out is refuted by a rule; rules with foreign predicates are not covered by the positive theorem"
  },
  {
   "property": "C72",
   "status": "partial",
   "theorems": [
    "Scallop.Plan.c72_partial",
    "Scallop.Plan.c72_blind_intersect_refuted",
    "Scallop.Plan.c72_file_repeated_refuted",
    "Scallop.Plan.c72_repeated_variable_refuted",
    "Scallop.Plan.c72_other_group_by_refuted"
   ],
   "note": "proved for plans that meet Fits, including foreign predicates; each condition is refuted where left out"
  },
  {
   "property": "C73",
   "status": "partial",
   "theorems": [
    "Scallop.Plan.c73_partial",
    "Scallop.Plan.c73_exact",
    "Scallop.Plan.c73_disjunctive_repeated_refuted"
   ],
   "note": "from C71 and C72; exact when no variable with another source is assigned to; disjunctive heads with a repeated variable refuted"
  },
  {
   "property": "C74",
   "status": "proved",
   "theorems": [
    "Scallop.Plan.c74",
    "Scallop.Plan.c74_unsorted_without_copy"
   ],
   "note": "given that relations are stored sorted (C01-C04)"
  },
  {
   "property": "C75",
   "status": "partial",
   "theorems": [
    "Scallop.Plan.c75_partial",
    "Scallop.Plan.c75_unique_partial",
    "Scallop.Plan.c75_layered_partial",
    "Scallop.Plan.c75_unplaced_refuted"
   ],
   "note": "proved for programs that meet ProgramOk (the conditions of C73 for every rule, stratification as in C19, and NoChain); that compilation succeeds is a hypothesis; without NoChain refuted: a relation made for a negated atom with a repeated variable and a constant is in no stratum"
  },
  {
   "property": "C76",
   "status": "proved",
   "theorems": [
    "Scallop.Exec.c76_execution"
   ],
   "note": "for provenances in which what is negated is removed (or programs without negation, any provenance) and aggregates that do not look at tags; relations stored sorted; termination (C17) is a hypothesis"
  },
  {
   "property": "C77",
   "status": "partial",
   "theorems": [
    "Scallop.Exec.c77_history_partial",
    "Scallop.Exec.c77_refuted_default",
    "Scallop.Exec.c77_refuted_failed",
    "Scallop.Exec.c77_refuted_execute"
   ],
   "note": "proved for contexts with incremental maintenance, and for the first successful run of any context; refuted for default contexts (facts are lost in the second run), for failed runs (results are lost), for execute and the interpreter (stale results, or a panic)"
  },
  {
   "property": "C78",
   "status": "partial",
   "theorems": [
    "Scallop.Exec.c78_rerun_partial",
    "Scallop.Exec.c78_refuted"
   ],
   "note": "proved for incremental maintenance and idempotent addition of tags; refuted for tags that count"
  },
  {
   "property": "C79",
   "status": "partial",
   "theorems": [
    "Scallop.Exec.c79_atomic_partial",
    "Scallop.Exec.c79_refuted"
   ],
   "note": "proved for the integration contexts (types checked before the call); refuted for execution contexts that check types in the database: results are dropped before the check"
  },
  {
   "property": "C80",
   "status": "partial",
   "theorems": [
    "Scallop.Exec.c80_program_partial"
   ],
   "note": "missing: rules with foreign predicates, atoms that repeat a variable and have no constants, `no_temp_relation`, indexed storage; negation only where the provenance removes what is negated, aggregates only where results do not depend on tags; that the compilation succeeds and the execution ends are hypotheses"
  },
  {
   "property": "C81",
   "status": "partial",
   "theorems": [
    "Scallop.c81_worlds_partial",
    "Scallop.c81_sound",
    "Scallop.c81_boolean",
    "Scallop.c81_min_max",
    "Scallop.c81_proofs_partial",
    "Scallop.c81_top_k_sound",
    "Scallop.c81_top_k_partial",
    "Scallop.c81_probability_bound",
    "Scallop.c81_probability_partial",
    "Scallop.c81_false"
   ],
   "note": "exact in full for boolean and min-max tags; for proofs and top-k proofs exact in runs in which no scan gallops (refuted otherwise) and sound in all; one stratum, default scheduler, no operator that resets tags"
  },
  {
   "property": "C82",
   "status": "partial",
   "theorems": [
    "Scallop.Exec.c82_worlds_partial",
    "Scallop.Exec.c82_model",
    "Scallop.Exec.c82_sound",
    "Scallop.Exec.c82_boolean",
    "Scallop.Exec.c82_min_max",
    "Scallop.Exec.c82_top_k_partial",
    "Scallop.Exec.c82_probability_partial",
    "Scallop.Exec.c82_probability_bound",
    "Scallop.Exec.topKProv_uniform",
    "Scallop.Exec.c82_aggregates_model",
    "Scallop.Exec.c82_aggregates_partial",
    "Scallop.Exec.c82_aggregators_exact",
    "Scallop.Exec.c82_boolean_aggregators",
    "Scallop.Exec.c82_boolean_aggregates_partial",
    "Scallop.Exec.c82_top_k_aggregators",
    "Scallop.Exec.c82_top_k_aggregates_partial",
    "Scallop.Exec.c82_probability_aggregates_partial",
    "Scallop.Exec.c82_implicit_count_false",
    "Scallop.Exec.c82_false"
   ],
   "note": "refuted for negated atoms with wildcards, of which only the first tuple with a given key is subtracted; exact for boolean and min-max tags when what is subtracted has each tuple once, and for top-k proofs with large k in runs in which no scan gallops; sound for all k without negation. With aggregations (c82_aggregates_partial and its instances): exact for count, exists, min, max and every aggregator that goes through all sets of facts; refuted for counts over groups made of the counted tuples, which report 0 for groups that do not exist in the world (c82_implicit_count_false). Missing: exclusions, other schedulers, groups overwritten with tag 1, aggregators with arguments and samplers inside programs"
  },
  {
   "property": "C83",
   "status": "partial",
   "theorems": [
    "Scallop.Exec.c83_worlds_partial",
    "Scallop.Exec.c83_model_partial",
    "Scallop.Exec.c83_compiled_partial",
    "Scallop.Exec.c83_sound_partial",
    "Scallop.Exec.c83_boolean_partial",
    "Scallop.Exec.c83_min_max_partial",
    "Scallop.Exec.c83_top_k_partial",
    "Scallop.Exec.c83_probability_partial",
    "Scallop.Exec.c83_probability_bound_partial",
    "Scallop.Exec.pathRules_compiled",
    "Scallop.Exec.pathRules_positive",
    "Scallop.Exec.c82_false"
   ],
   "note": "C75 and C82 composed; that what compiled rules subtract has each tuple once is proved, not assumed (negated atoms have no wildcards, see c82_false). Missing: aggregates, disjunctive heads, foreign predicates, magic-set predicates, repeated variables in an atom, runs in which a scan gallops for top-k proofs"
  },
  {
   "property": "C84",
   "status": "partial",
   "theorems": [
    "Scallop.Front.c84_partial",
    "Scallop.Front.c84_aggregations_partial",
    "Scallop.Front.c84_count",
    "Scallop.Front.c84_sums_cancel",
    "Scallop.Front.c84_differences_cancel",
    "Scallop.Front.c84_strings_cancel",
    "Scallop.Front.c84_ends",
    "Scallop.Front.c84_accepts",
    "Scallop.Front.c84_negated_refuted",
    "Scallop.Front.c84_foreign_wildcard_refuted",
    "Scallop.Front.c84_shadow_refuted",
    "Scallop.Plan.c71_foreign_input_refuted"
   ],
   "note": "sound for rules without aggregations, and for rules with aggregations that are not nested and without a demand pattern (also: each aggregation ranges over finitely many tuples): finitely many facts, and (not counting sums clipped to their type) at most one for each way to match the atoms; negated atoms and functions are arbitrary; refuted for the values of variables that occur only in negated atoms, and for foreign predicates that are given a wildcard as input (accepted, and then left out of the plan), and for aggregations that bind a variable with the name of a demanded one. Missing: nested aggregations, aggregations together with demand patterns, where clauses with variables that are not listed, copies of expressions that share an identifier"
  },
  {
   "property": "C85",
   "status": "partial",
   "theorems": [
    "Scallop.Plan.c85_partial",
    "Scallop.Plan.c85_has_model",
    "Scallop.Plan.c85_demand_rules_bound",
    "Scallop.Plan.c85_rejects",
    "Scallop.Plan.c85_unbound_negated_refuted",
    "Scallop.Plan.c85_negated_refuted",
    "Scallop.Plan.c85_dropped_refuted",
    "Scallop.Plan.c85_stratification_refuted"
   ],
   "note": "refuted in general: negated on-demand atoms become positive in demand rules, negated atoms are kept in demand rules where their variables are not known, demands that cannot be computed are dropped without an error, and stratified programs may be rewritten to programs that are not. Proved, for any initial demands, for programs that are stratified before and after, where every on-demand atom can be given its arguments and negated on-demand atoms are looked up last; aggregations do not look at on-demand relations directly. Missing: tags"
  },
  {
   "property": "C86",
   "status": "partial",
   "theorems": [
    "Scallop.Ty.c86_merge_exact",
    "Scallop.Ty.c86_refused_disjoint_partial",
    "Scallop.Ty.c86_refused_disjoint_false",
    "Scallop.Ty.c86_inference_ends_partial",
    "Scallop.Ty.c86_inference_ends_false"
   ],
   "note": "refuted for the set of the unsigned integer types, which only user-defined foreign functions can mention: it is not compared with base types and is taken to differ from itself, so u32 is refused and inference may run forever. Proved otherwise, with a linear bound on the passes. Missing: aggregates in rules"
  },
  {
   "property": "C87",
   "status": "partial",
   "theorems": [
    "Scallop.Ty.c87_derived_typed_partial",
    "Scallop.Ty.c87_no_type_error_partial",
    "Scallop.Ty.c87_constraint_bool_partial",
    "Scallop.Ty.c87_cast_allowed_partial",
    "Scallop.Ty.c87_typed_false",
    "Scallop.Ty.c87_supported_false"
   ],
   "note": "refuted in general: the last, strict step chooses types rule by rule in program order, so relations get types that disagree; and -, %, and casts are accepted at types for which the runtime has no case. Proved when repeating the last step changes no type of a value (a decidable condition) and the operators are supported at their types. Missing: aggregates, destructors, dates and durations"
  },
  {
   "property": "C88",
   "status": "partial",
   "theorems": [
    "Scallop.Ty.c88_declared_kept_partial",
    "Scallop.Ty.c88_fact_literals_partial",
    "Scallop.Ty.c88_declared_kept_false",
    "Scallop.Ty.c88_fact_literals_false",
    "Scallop.Ty.c88_literal_wraps",
    "Scallop.Ty.c88_literal_kept_iff"
   ],
   "note": "refuted in general: a declared constant used as an argument of an atom replaces the declared type; a declaration that follows facts may drop columns; integer literals wrap. Proved for programs without these, wherever the declaration comes first"
  },
  {
   "property": "C89",
   "status": "partial",
   "theorems": [
    "Scallop.Foreign.c89_registered",
    "Scallop.Foreign.c89_return_type_partial",
    "Scallop.Foreign.c89_calls_typed_partial",
    "Scallop.Foreign.c89_return_type_false",
    "Scallop.Foreign.c89_no_panic_partial",
    "Scallop.Foreign.c89_no_panic_false",
    "Scallop.Foreign.c89_abs",
    "Scallop.Foreign.c89_sign_partial",
    "Scallop.Foreign.c89_sign_false",
    "Scallop.Foreign.c89_sign_float",
    "Scallop.Foreign.c89_round",
    "Scallop.Foreign.c89_pow",
    "Scallop.Foreign.c89_max",
    "Scallop.Foreign.c89_min",
    "Scallop.Foreign.c89_max_float_partial",
    "Scallop.Foreign.c89_max_float_false"
   ],
   "note": "types: proved for all but $sign, which returns an i32 for a floating point number; panics: $max() without arguments, overflow of $abs and $pow, $substring out of range and $format with the wrong number of arguments; sign of the unsigned zero is one; max and min depend on the order when an argument is NaN. Missing: the functions on dates, tensors and entities"
  },
  {
   "property": "C90",
   "status": "partial",
   "theorems": [
    "Scallop.Foreign.c90_concat",
    "Scallop.Foreign.c90_length_concat",
    "Scallop.Foreign.c90_char_at_partial",
    "Scallop.Foreign.c90_char_at_false",
    "Scallop.Foreign.c90_substring",
    "Scallop.Foreign.c90_substring_ascii",
    "Scallop.Foreign.c90_substring_parts",
    "Scallop.Foreign.c90_index_of",
    "Scallop.Foreign.c90_index_of_substring",
    "Scallop.Foreign.c90_find_partial",
    "Scallop.Foreign.c90_find_false",
    "Scallop.Foreign.c90_find_all",
    "Scallop.Foreign.c90_chars",
    "Scallop.Foreign.c90_index_partial",
    "Scallop.Foreign.c90_index_false",
    "Scallop.Foreign.c90_split",
    "Scallop.Foreign.c90_replace",
    "Scallop.Foreign.c90_format",
    "Scallop.Foreign.c90_trim",
    "Scallop.Foreign.c90_case"
   ],
   "note": "$string_length, $substring and $string_index_of count bytes, $string_char_at, string_chars and string_index count characters, and string_find counts the start in bytes and adds a number of bytes: proved for all strings within each group and for ASCII strings across them, refuted for others"
  },
  {
   "property": "C91",
   "status": "partial",
   "theorems": [
    "Scallop.Soft.c91_probability",
    "Scallop.Soft.c91_equal",
    "Scallop.Soft.c91_complement",
    "Scallop.Soft.c91_monotone",
    "Scallop.Soft.c91_soft_eq",
    "Scallop.Soft.c91_soft_eq_false",
    "Scallop.Soft.c91_soft_eq_far",
    "Scallop.Soft.c91_derivative_false",
    "Scallop.Soft.c91_unsigned_false",
    "Scallop.Soft.c91_tensor_partial",
    "Scallop.Soft.c91_tensor_false"
   ],
   "note": "over the real numbers; soft_eq is the square root of the normalised derivative and is not implemented for three of the four sigmoid functions; of tensors, soft_eq and soft_neq add up to one but are not probabilities; rounding and overflow of floating point numbers are not modelled"
  },
  {
   "property": "C92",
   "status": "partial",
   "theorems": [
    "Scallop.Ent.c92_string",
    "Scallop.Ent.c92_accepts_partial",
    "Scallop.Ent.c92_new",
    "Scallop.Ent.c92_const",
    "Scallop.Ent.c92_one_term_partial",
    "Scallop.Ent.c92_strings_partial",
    "Scallop.Ent.c92_string_typed_partial",
    "Scallop.Ent.c92_store",
    "Scallop.Ent.c92_drain",
    "Scallop.Ent.c92_add_string",
    "Scallop.Ent.c92_distinct_false",
    "Scallop.Ent.c92_ways_false",
    "Scallop.Ent.c92_places_false",
    "Scallop.Ent.c92_string_types_false",
    "Scallop.Ent.c92_symbol_false"
   ],
   "note": "that an entity is its term, and the store, are proved in general; that terms and entities correspond one to one is proved for a run in which the hash does not collide, among strings, and refuted otherwise: 64 bits cannot tell all terms apart, new hashes another name than strings do, and constants hash their place in the source text. Strings may put constructors where numbers are expected, and may not contain symbols. Missing: dates and durations in strings, entities among the variables of new that no fact shows"
  },
  {
   "property": "C93",
   "status": "partial",
   "theorems": [
    "Scallop.Consts.c93_no_panic",
    "Scallop.Consts.c93_accepts",
    "Scallop.Consts.c93_distinct",
    "Scallop.Consts.c93_replaced",
    "Scallop.Consts.c93_left",
    "Scallop.Consts.c93_ground",
    "Scallop.Consts.c93_enum",
    "Scallop.Consts.c93_type_partial",
    "Scallop.Consts.c93_order_false",
    "Scallop.Consts.c93_alias_false",
    "Scallop.Consts.c93_given_false",
    "Scallop.Consts.c93_overflow_false"
   ],
   "note": "acceptance, replacement by the value and the numbers of members are proved for all programs; types for constants declared as literals. Refuted: a constant declared by another constant loses its type, a rule before the declaration has a variable of the name, numbers given to members that are negative are ignored, and the number after the greatest one is the least. Missing: uses inside types and attributes"
  },
  {
   "property": "C94",
   "status": "partial",
   "theorems": [
    "Scallop.Compile.c94_atomic",
    "Scallop.Compile.c94_no_panic",
    "Scallop.Compile.c94_adds",
    "Scallop.Compile.c94_clone",
    "Scallop.Compile.c94_clones",
    "Scallop.Compile.c94_decides",
    "Scallop.Compile.c94_deterministic",
    "Scallop.Compile.c94_order",
    "Scallop.Compile.c94_imports_first",
    "Scallop.Compile.c94_once",
    "Scallop.Compile.c94_tree",
    "Scallop.Compile.c94_cycle",
    "Scallop.Compile.c94_items",
    "Scallop.Compile.c94_fresh_partial",
    "Scallop.Compile.c94_stuck",
    "Scallop.Compile.c94_diamond_false",
    "Scallop.Compile.c94_twice_false",
    "Scallop.Compile.c94_outputs_false"
   ],
   "note": "atomicity, isolation of clones, termination, order, uniqueness of loads and refusal of cycles are proved for every language; refuted: a file imported by two files is refused as a cycle although there is none, a file given twice by the user is loaded twice, and outputs asked for after a compilation are ignored without an error. Missing: foreign functions and attributes that are registered outside of compiling"
  },
  {
   "property": "C95",
   "status": "partial",
   "theorems": [
    "Scallop.c95_negate",
    "Scallop.c95_add",
    "Scallop.c95_add_cnf_partial",
    "Scallop.c95_true_false",
    "Scallop.c95_history_true_false",
    "Scallop.c95_mult",
    "Scallop.c95_mult_cnf",
    "Scallop.c95_add_best_partial",
    "Scallop.c95_mult_best_partial",
    "Scallop.c95_best_false",
    "Scallop.c95_history",
    "Scallop.c95_history_exact_partial",
    "Scallop.c95_total",
    "Scallop.c95_at_most_k",
    "Scallop.c95_output",
    "Scallop.c95_lower_bound",
    "Scallop.c95_history_false",
    "Scallop.c95_exclusive_false"
   ],
   "note": "bounds, exactness with room, termination, sizes and output are proved for all operations and histories; the best clauses for sums in order. Refuted: a sum with the empty conjunction, true, is false, without any cutting off; a product does not keep the best; negation of a tag that was cut off is true where it should be false; conjunctions of exclusive facts survive negation. Missing: histories that cut tags off and use negation, where no bound holds"
  },
  {
   "property": "C96",
   "status": "partial",
   "theorems": [
    "Scallop.Tagged.c96_sound",
    "Scallop.Tagged.c96_bounds",
    "Scallop.Tagged.c96_worlds_partial",
    "Scallop.Tagged.c96_one_event",
    "Scallop.Tagged.c96_separate",
    "Scallop.Tagged.c96_min_max",
    "Scallop.Tagged.c96_probability_bound",
    "Scallop.Tagged.c96_probability_partial",
    "Scallop.Tagged.c96_transformed",
    "Scallop.Tagged.c96_head",
    "Scallop.Tagged.c96_tag_types",
    "Scallop.Tagged.c96_evaluate",
    "Scallop.Tagged.c96_types_false",
    "Scallop.Tagged.c96_planned",
    "Scallop.Tagged.c96_planned_expr",
    "Scallop.Tagged.c96_recursive_false",
    "Scallop.Tagged.c96_order_false",
    "Scallop.Tagged.c96_diverges"
   ],
   "note": "soundness for every run; exactness and probabilities for tagged rules that read finished collections, and for min-max probabilities also for recursive rules; the transformation, the types and the place in the plan. Refuted: in recursive rules a tuple gets several independent events, so that probabilities are wrong and programs may not terminate; the events are those of the first atom in the order of joins; tags of type f64 or bool panic. Missing: exactness where events of one rule and tuple disagree"
  },
  {
   "property": "C97",
   "status": "partial",
   "theorems": [
    "Scallop.Input.c97_full",
    "Scallop.Input.c97_exclusive_prob",
    "Scallop.Input.c97_diff_prob",
    "Scallop.Input.c97_float",
    "Scallop.Input.c97_natural",
    "Scallop.Input.c97_bool",
    "Scallop.Input.c97_exclusion",
    "Scallop.Input.c97_with_id",
    "Scallop.Input.c97_false_refuted",
    "Scallop.Input.c97_zero_refuted",
    "Scallop.Input.c97_alternative_prob",
    "Scallop.Input.c97_alternative_choice",
    "Scallop.Input.c97_written_partial",
    "Scallop.Input.c97_untagged_partial",
    "Scallop.Input.c97_expression_refuted",
    "Scallop.Input.c97_computed_refuted",
    "Scallop.Input.c97_clone",
    "Scallop.Input.c97_clone_prob",
    "Scallop.Input.c97_clone_positive",
    "Scallop.Input.c97_clone_choice",
    "Scallop.Input.c97_clone_same",
    "Scallop.Input.c97_clone_refuted",
    "Scallop.Input.c97_internalize",
    "Scallop.Input.c97_probability",
    "Scallop.Input.c97_probability_partial"
   ],
   "note": "for each type of input tags exactly which tags are read as they are (all of them by the differentiable provenances with proofs), for all lists of facts the joint probabilities, and the conversions of a cloned context. Refuted: false and probabilities with an identifier are certain with the provenances with proofs, probability 0 is true with Boolean provenance, a tag that is an expression is ignored, a tagged fact with computed arguments never holds, the debugging provenance loses its tags when cloned."
  },
  {
   "property": "C98",
   "status": "partial",
   "theorems": [
    "Scallop.Input.c98_program",
    "Scallop.Input.c98_bool_refuted",
    "Scallop.Input.c98_alternatives",
    "Scallop.Input.c98_numbers",
    "Scallop.Input.c98_choice_partial",
    "Scallop.Input.c98_revisit_refuted",
    "Scallop.Input.c98_origins_refuted",
    "Scallop.Input.c98_database",
    "Scallop.Input.c98_database_refuted"
   ],
   "note": "choices written in a program and calls to a database, and for choices made by rules exactly which alternatives share a number. Refuted: a solution found in two iterations makes two choices; choices written in a program, made by rules and given to a database are numbered from 0 each and exclude each other; alternatives tagged with a Boolean are not exclusive."
  },
  {
   "property": "C99",
   "status": "partial",
   "theorems": [
    "Scallop.Csv.c99_load",
    "Scallop.Csv.c99_value",
    "Scallop.Csv.c99_raw",
    "Scallop.Csv.c99_fields",
    "Scallop.Csv.c99_keys",
    "Scallop.Csv.c99_keys_accepts",
    "Scallop.Csv.c99_rectangular",
    "Scallop.Csv.c99_header",
    "Scallop.Csv.c99_registry_partial",
    "Scallop.Csv.c99_registry_refuted",
    "Scallop.Csv.c99_registry_order_refuted",
    "Scallop.Csv.c99_once",
    "Scallop.Csv.c99_symbol_refuted",
    "Scallop.Csv.c99_roundtrip_partial",
    "Scallop.Csv.c99_roundtrip_string_refuted",
    "Scallop.Csv.c99_roundtrip_char_refuted",
    "Scallop.Csv.c99_probability_partial",
    "Scallop.Csv.c99_row_probability_refuted",
    "Scallop.Csv.c99_symbols",
    "Scallop.Csv.c99_symbols_stable"
   ],
   "note": "for all contents with distinct headers exactly which facts each way of loading gives and exactly which files are refused; symbols over all histories. Refuted: a file is kept under its path only, so a second relation reads it with the delimiter and header of the first; columns of symbols panic; strings, characters and symbols do not survive being written and loaded again; several facts of one row with a probability are independent."
  },
  {
   "property": "C100",
   "status": "partial",
   "theorems": [
    "Scallop.Statics.c100_sound",
    "Scallop.Statics.c100_least_fixpoint_partial",
    "Scallop.Statics.c100_same_tuples",
    "Scallop.Statics.c100_same_result_unit",
    "Scallop.Statics.c100_worlds_sound",
    "Scallop.Statics.c100_rules",
    "Scallop.Statics.c100_merge",
    "Scallop.Statics.c100_tags_false",
    "Scallop.Statics.c100_rule_order_false",
    "Scallop.Statics.c100_facts_false",
    "Scallop.Statics.c100_discard_false",
    "Scallop.Statics.c100_failing_expression_false",
    "Scallop.Statics.c100_terminates_false"
   ],
   "note": "for all strata of relational operators: soundness, the least fixpoint and the same tuples as the interpreter under any of its schedulers, the same result without tags, soundness of tags in every world, the same batches with the same tags for each rule in each turn, and exactly where merging differs. Refuted: a tuple that comes first in two merged batches keeps one tag only, so tags differ from the interpreter's and depend on the order of rules; facts that would be discarded are kept; a failing expression panics; termination fails as in C17. Aggregations are in C110, expressions in C111."
  },
  {
   "property": "C101",
   "status": "partial",
   "theorems": [
    "Scallop.StrJoin.c101_join",
    "Scallop.StrJoin.c101_join_sound",
    "Scallop.StrJoin.c101_discrete",
    "Scallop.StrJoin.c101_all",
    "Scallop.StrJoin.c101_choices",
    "Scallop.StrJoin.c101_one",
    "Scallop.StrJoin.c101_choices_sound",
    "Scallop.StrJoin.c101_no_negation_partial",
    "Scallop.StrJoin.c101_boolean_false"
   ],
   "note": "proved for exact tags in every world, with and without arguments, and soundness for all sound tags. Refuted for Boolean tags: their negation is not used by the code, so a false fact is joined and no correct result is left."
  },
  {
   "property": "C102",
   "status": "partial",
   "theorems": [
    "Scallop.WAgg.c102_sum",
    "Scallop.WAgg.c102_avg_partial",
    "Scallop.WAgg.c102_avg_false",
    "Scallop.WAgg.c102_discrete",
    "Scallop.WAgg.c102_bounds",
    "Scallop.WAgg.c102_expected",
    "Scallop.WAgg.c102_mean_false",
    "Scallop.WAgg.c102_example"
   ],
   "note": "proved: the one true result of every world for sums, and for averages where the weights of the true facts do not add up to 0; bounds; all facts with `!`; the expected sum with `!`. Refuted: an average over no true fact is not a number; without `!` every weight counts twice in the mean."
  },
  {
   "property": "C103",
   "status": "partial",
   "theorems": [
    "Scallop.WAgg.c103_float",
    "Scallop.WAgg.c103_softmax",
    "Scallop.WAgg.c103_zero_false",
    "Scallop.WAgg.c103_default_false",
    "Scallop.WAgg.c103_proofs",
    "Scallop.WAgg.c103_forgets_false",
    "Scallop.WAgg.c103_disjunct",
    "Scallop.WAgg.c103_disjunct_args",
    "Scallop.WAgg.c103_forgets_example"
   ],
   "note": "proved: probabilities that add up to 1 in proportion to the weights, mutual exclusion after every history, facts and order kept, groups of disjunct. Refuted: facts all of weight 0, a normalized fact forgets its derivation, and all other provenances (among them all differentiable ones) ignore normalize."
  },
  {
   "property": "C104",
   "status": "partial",
   "theorems": [
    "Scallop.WAgg.c104_uniform",
    "Scallop.WAgg.c104_uniform_all",
    "Scallop.WAgg.c104_fewer_false",
    "Scallop.WAgg.c104_categorical",
    "Scallop.WAgg.c104_registry",
    "Scallop.WAgg.c104_registry_only",
    "Scallop.WAgg.c104_uniform_false"
   ],
   "note": "proved: distinct facts of the batch, all of at most k, at most k otherwise, positive weights, every outcome possible; the registry. Refuted: fewer than k facts are possible; `uniform` is the categorical sampler, `categorical` is unknown."
  },
  {
   "property": "C105",
   "status": "partial",
   "theorems": [
    "Scallop.Front.c105_query",
    "Scallop.Front.c105_compiled",
    "Scallop.Front.c105_relation",
    "Scallop.Front.c105_names",
    "Scallop.Front.c105_answers_partial",
    "Scallop.Front.c105_outputs",
    "Scallop.Front.c105_mixed_false"
   ],
   "note": "proved: the rule of a query and its compiled form derive exactly the answers for all arguments; the relation holds the answers of all queries of the same text; with uncomposed arguments texts determine queries; outputs. Refuted: strings are printed without escapes, so two different queries can share a relation. Missing: uniqueness of texts of composed arguments."
  },
  {
   "property": "C106",
   "status": "partial",
   "theorems": [
    "Scallop.Literal.c106_string_partial",
    "Scallop.Literal.c106_string_false",
    "Scallop.Literal.c106_writable",
    "Scallop.Literal.c106_no_backslash",
    "Scallop.Literal.c106_unwritable_false",
    "Scallop.Literal.c106_symbol",
    "Scallop.Literal.c106_unique",
    "Scallop.Literal.c106_char_partial",
    "Scallop.Literal.c106_char_false",
    "Scallop.Literal.c106_int",
    "Scallop.Literal.c106_int_range"
   ],
   "note": "proved: exactly which literals are read as usual and which strings, symbols, characters and numbers can be written. Refuted: an escaped backslash before t, r, n, 0; strings such as C:\\\\new, characters outside ASCII and numbers beyond i64 cannot be written."
  },
  {
   "property": "C107",
   "status": "partial",
   "theorems": [
    "Scallop.Import.c107_terminates",
    "Scallop.Import.c107_exact",
    "Scallop.Import.c107_items",
    "Scallop.Import.c107_cycle",
    "Scallop.Import.c107_history",
    "Scallop.Import.c107_diamond_false",
    "Scallop.Import.c107_twice_false"
   ],
   "note": "proved: termination, exactly which sources compile and to which items, order, cycles, histories. Refuted: two files that import the same file are refused as if they were a cycle, and a file given twice as a source is compiled twice. Not modelled: how paths are resolved, parsing; the analyses are an arbitrary condition."
  },
  {
   "property": "C108",
   "status": "partial",
   "theorems": [
    "Scallop.Attr.c108_demand_partial",
    "Scallop.Attr.c108_demand_sound",
    "Scallop.Attr.c108_disjunctive_partial",
    "Scallop.Attr.c108_scheduler_partial",
    "Scallop.Attr.c108_storage",
    "Scallop.Attr.c108_values",
    "Scallop.Attr.c108_arguments",
    "Scallop.Attr.c108_goal_partial",
    "Scallop.Attr.c108_hidden_partial",
    "Scallop.Attr.c108_demand_false",
    "Scallop.Attr.c108_disjunctive_false",
    "Scallop.Attr.c108_ignored_false"
   ],
   "note": "proved: for every accepted program exactly which attributes count, and that they agree. Refuted: demands of facts, sets and conjunctive heads and of several relations declared with bound/free in one declaration are lost; only the first relation of a disjunctive head is checked, and any attribute on it can be refused; @hidden and @scheduler at aggregate rules and @goal at facts are ignored."
  },
  {
   "property": "C109",
   "status": "partial",
   "theorems": [
    "Scallop.Attr.c109_extension",
    "Scallop.Attr.c109_options",
    "Scallop.Attr.c109_output_options",
    "Scallop.Attr.c109_ascii_message",
    "Scallop.Attr.c109_accepts",
    "Scallop.Attr.c109_inputs",
    "Scallop.Attr.c109_outputs",
    "Scallop.Attr.c109_query_errors_false",
    "Scallop.Attr.c109_silent_false",
    "Scallop.Attr.c109_elsewhere_false",
    "Scallop.Attr.c109_header_false"
   ],
   "note": "proved: which paths count as csv files, exactly which attributes are accepted and what they mean, which relations are read from which files and which results go where. Refuted: errors at queries are never reported (the results are printed instead), @file at rules and facts is ignored, has_header = false is overridden by keys or fields."
  },
  {
   "property": "C110",
   "status": "partial",
   "theorems": [
    "Scallop.SAgg.c110_supported",
    "Scallop.SAgg.c110_settings",
    "Scallop.SAgg.c110_single",
    "Scallop.SAgg.c110_implicit",
    "Scallop.SAgg.c110_join",
    "Scallop.SAgg.c110_no_panic",
    "Scallop.SAgg.c110_top",
    "Scallop.SAgg.c110_keys",
    "Scallop.SAgg.c110_mark_false",
    "Scallop.SAgg.c110_unsupported_false"
   ],
   "note": "proved: which uses can be compiled, that they call the aggregator of the interpreter with the same settings exactly if there is no mark ! or the aggregate is count, exists or top, that the three groupings give what those of the interpreter give and panic only where they do, and that top chooses the same facts. Refuted: the mark ! of sum, prod, min, max, argmin and argmax is ignored; most aggregates make the generator panic."
  },
  {
   "property": "C111",
   "status": "partial",
   "theorems": [
    "Scallop.SExpr.c111_same",
    "Scallop.SExpr.c111_sums",
    "Scallop.SExpr.c111_division",
    "Scallop.SExpr.c111_rejected",
    "Scallop.SExpr.c111_digits_false",
    "Scallop.SExpr.c111_overflow_false",
    "Scallop.SExpr.c111_nan_false",
    "Scallop.SExpr.c111_short_circuit_false",
    "Scallop.SExpr.c111_casts_false"
   ],
   "note": "proved: if the interpreter gives a value, sums and differences are in range, casts are between numbers and only what can be compiled is used, then the compiled expression gives the same value with and without overflow checks; sums and differences agree exactly if in range; division agrees always. Refuted: sums out of range, divisions that give NaN, operands that need not be evaluated, casts of digits and of most integer types."
  },
  {
   "property": "C112",
   "status": "partial",
   "theorems": [
    "Scallop.Syn.c112_unambiguous",
    "Scallop.Syn.c112_unambiguous_formula",
    "Scallop.Syn.c112_written",
    "Scallop.Syn.c112_written_formula",
    "Scallop.Syn.c112_precedence",
    "Scallop.Syn.c112_comparisons",
    "Scallop.Syn.c112_conditional",
    "Scallop.Syn.c112_trailing_comma",
    "Scallop.Syn.c112_adjacent",
    "Scallop.Syn.c112_and_or_false",
    "Scallop.Syn.c112_parentheses_false",
    "Scallop.Syn.c112_unary_false",
    "Scallop.Syn.c112_shown_partial",
    "Scallop.Syn.c112_shown_false",
    "Scallop.Syn.c112_connectives",
    "Scallop.Syn.c112_comma",
    "Scallop.Syn.c112_parentheses",
    "Scallop.Syn.c112_formulas_false"
   ],
   "note": "proved for all token sequences: expressions and formulas are read in at most one way; chains of operators are read exactly as grouped by strength, and refused exactly if they compare twice between logical operators; conditionals reach as far as possible; every expression can be written; shown expressions are read back if no conditional is an operand. Refuted: && and || bind alike; parentheses around units, two prefix operators or casts in a row and commas mixed with other connectives are refused; conditionals are shown without parentheses. Missing: declarations, atomic formulas (single tokens in the part about formulas)."
  },
  {
   "property": "C113",
   "status": "partial",
   "theorems": [
    "Scallop.Lexer.c113_longest",
    "Scallop.Lexer.c113_unique",
    "Scallop.Lexer.c113_kind",
    "Scallop.Lexer.c113_tokens",
    "Scallop.Lexer.c113_skips",
    "Scallop.Lexer.c113_specialized",
    "Scallop.Lexer.c113_layout_partial",
    "Scallop.Lexer.c113_spaced_partial",
    "Scallop.Lexer.c113_layout_false",
    "Scallop.Lexer.c113_blanks",
    "Scallop.Lexer.c113_line_comment",
    "Scallop.Lexer.c113_block_comment",
    "Scallop.Lexer.c113_minus_false",
    "Scallop.Lexer.c113_tab_false",
    "Scallop.Lexer.c113_expression"
   ],
   "note": "proved for all texts: the lexer cuts the text into the longest pieces, in one way; what the tokens of each kind and the comments look like; a specialized name is read as its name and arguments; any layout of tokens in which nowhere `name < name, name ... >` stands is read back; blanks, line comments and block comments change nothing; every expression can be written as a text. Refuted: two comparisons `a < b, c > d` are read as a specialized name; `x-1` is a name and a number; tabs are refused. Missing: nothing else; the layout theorems hold under the stated proviso only."
  },
  {
   "property": "C114",
   "status": "partial",
   "theorems": [
    "Scallop.Loc.c114_position",
    "Scallop.Loc.c114_line",
    "Scallop.Loc.c114_rows",
    "Scallop.Loc.c114_order",
    "Scallop.Loc.c114_report",
    "Scallop.Loc.c114_marks_partial",
    "Scallop.Loc.c114_marks_iff",
    "Scallop.Loc.c114_marks_false",
    "Scallop.Loc.c114_span_partial",
    "Scallop.Loc.c114_span_false",
    "Scallop.Loc.c114_lines_false",
    "Scallop.Loc.c114_macro",
    "Scallop.Loc.c114_prompt_partial",
    "Scallop.Loc.c114_syntax_partial",
    "Scallop.Loc.c114_syntax_false"
   ],
   "note": "proved for all texts and places: row and column, the line shown, the order of locations, that every report can be made, locations in Rust macros; that exactly the reported part is marked if the characters before and in it take one byte. that this condition is necessary; the lines and marks of parts of several lines; lines of the prompt; syntax errors in files. Refuted: marks after characters of several bytes (such as the quantifiers), all reports of several lines, syntax errors in strings, at the prompt and in macros. Missing: the parser that gives offsets."
  },
  {
   "property": "C115",
   "status": "partial",
   "theorems": [
    "Scallop.InputMap.c115_indices",
    "Scallop.InputMap.c115_list_partial",
    "Scallop.InputMap.c115_string_false",
    "Scallop.InputMap.c115_accepts",
    "Scallop.InputMap.c115_dict",
    "Scallop.InputMap.c115_facts",
    "Scallop.InputMap.c115_top_partial",
    "Scallop.InputMap.c115_top_zero_false",
    "Scallop.InputMap.c115_top_dim_partial",
    "Scallop.InputMap.c115_sample_partial",
    "Scallop.InputMap.c115_sample_dim_partial",
    "Scallop.InputMap.c115_sample_dim_false",
    "Scallop.InputMap.c115_batch",
    "Scallop.InputMap.c115_forward_false"
   ],
   "note": "proved for all mappings, tensors and settings: places and numbers correspond, what lists and dictionaries mean and which lists are accepted, which facts a tensor means, the best facts, samples, and the choices, also in batches. torch.topk and sampling are any functions that keep their promise. Refuted: strings among tuples of their length, the bound zero, samples along a dimension of three or more, choices of different relations of a forward function. Missing: nothing else; the hypotheses of the partial theorems exclude exactly these, except that three dimensions with samples along the first, which work, are excluded too"
  },
  {
   "property": "C116",
   "status": "partial",
   "theorems": [
    "Scallop.ListFacts.c116_disjunctions_partial",
    "Scallop.ListFacts.c116_overlap_false",
    "Scallop.ListFacts.c116_none",
    "Scallop.ListFacts.c116_retain_partial",
    "Scallop.ListFacts.c116_debug_false"
   ],
   "note": "proved for all facts, bounds and disjunctions of which no two have a fact in common. Refuted: a fact in two disjunctions stays in the last one only; with the provenance for debugging, facts in disjunctions are not accepted. Missing: provenances that take no tags, negative numbers of facts"
  },
  {
   "property": "C117",
   "status": "partial",
   "theorems": [
    "Scallop.ForwardOut.c117_outputs_partial",
    "Scallop.ForwardOut.c117_order_false",
    "Scallop.ForwardOut.c117_other_false",
    "Scallop.ForwardOut.c117_gradients_partial",
    "Scallop.ForwardOut.c117_sparse_false"
   ],
   "note": "proved for all batches, mappings and collections when the relations asked for are in the order of the outputs; the chain rule for all derivatives, dense and sparse. Refuted: relations asked for in another order than their mappings, or other relations than those of the function, are returned under wrong names; sparse matrices without entries are exceptions. Missing: other output relations for each item, provenances without derivatives, debugging information, rounding"
  },
  {
   "property": "C118",
   "status": "partial",
   "theorems": [
    "Scallop.CtxState.c118_restore_partial",
    "Scallop.CtxState.c118_choice",
    "Scallop.CtxState.c118_proofs_facts",
    "Scallop.CtxState.c118_probabilistic_false",
    "Scallop.CtxState.c118_settings_false",
    "Scallop.CtxState.c118_failed_false",
    "Scallop.CtxState.c118_flags_false",
    "Scallop.CtxState.c118_mapping_false",
    "Scallop.CtxState.c118_clone_partial",
    "Scallop.CtxState.c118_clone_k_false",
    "Scallop.CtxState.c118_clone_default_false",
    "Scallop.CtxState.c118_clone_wmc_false",
    "Scallop.CtxState.c118_training"
   ],
   "note": "proved for all sequences of calls without exceptions in which relations are made (non-)probabilistic and mapped by their declarations, before facts are added; copies with provenance and k. Refuted: settings, standard library and monitors are lost; an exception that was caught makes a context impossible to restore; facts of relations made non-probabilistic later are restored wrapped twice; mappings set later are lost; copies ignore k without provenance, cannot be restored with a provenance without k, and lose wmc_with_disjunctions. Missing: custom provenances, sampled facts, what the bindings do with the calls"
  },
  {
   "property": "C119",
   "status": "partial",
   "theorems": [
    "Scallop.c119_loop_partial",
    "Scallop.c119_events",
    "Scallop.c119_goal_false",
    "Scallop.c119_entities_false",
    "Scallop.Exec.c119_execution_partial",
    "Scallop.Exec.c119_schedulers_ignored",
    "Scallop.Exec.c119_read_partial",
    "Scallop.Exec.c119_read_false",
    "Scallop.Exec.c119_interpret_partial",
    "Scallop.Exec.c119_interpret_false",
    "Scallop.Exec.c119_scheduler_false",
    "Scallop.Exec.c119_outputs_false"
   ],
   "note": "proved for all programs, facts and settings when no relation has its own scheduler, no entities are created, every stratum has a visible or read relation or maintenance is incremental, and relations that are read are computed and not empty; the events of the loop for all strata. Refuted: schedulers of relations and new entities are ignored, strata without outputs panic, empty and given relations cannot be read, loaded monitors are not told of reached goals. Missing: events of loading and tagging facts"
  },
  {
   "property": "C120",
   "status": "partial",
   "theorems": [
    "Scallop.Dump.c120_proofs_partial",
    "Scallop.Dump.c120_given_partial",
    "Scallop.Dump.c120_proofs_false",
    "Scallop.Dump.c120_variables_false",
    "Scallop.Dump.c120_stale_false",
    "Scallop.Dump.c120_directory_false"
   ],
   "note": "proved for all sequences of loaded and read relations: proofs are written for relations without given probabilistic facts and for the last one read, given facts for relations that are not read. Refuted: given facts and proofs of a relation share a file; files of relations that are empty now are kept; no directory is a panic. Missing: the JSON text; monitors that see several runs"
  },
  {
   "property": "C121",
   "status": "partial",
   "theorems": [
    "Scallop.Declare.c121_accepts_partial",
    "Scallop.Declare.c121_types",
    "Scallop.Declare.c121_others",
    "Scallop.Declare.c121_together",
    "Scallop.Declare.c121_reports",
    "Scallop.Declare.c121_order_false",
    "Scallop.Declare.c121_twice_false",
    "Scallop.Declare.c121_all_false"
   ],
   "note": "proved for all lists of declarations and all states: what is accepted, what types and relations mean, that nothing else changes, that two parts are the same as the whole, what is reported. Refuted: that the order of declarations does not matter, that mistakes are reported once, that all are. Missing: relations that are used before they are declared (C88) and foreign predicates"
  },
  {
   "property": "C122",
   "status": "partial",
   "theorems": [
    "Scallop.Warn.c122_warnings",
    "Scallop.Warn.c122_exact",
    "Scallop.Warn.c122_rejected",
    "Scallop.Warn.c122_quiet",
    "Scallop.Warn.c122_place_partial",
    "Scallop.Warn.c122_again_false",
    "Scallop.Warn.c122_import_false",
    "Scallop.Warn.c122_rejected_false",
    "Scallop.Warn.c122_place_false",
    "Scallop.Front.c122_wildcards_partial",
    "Scallop.Front.c122_wildcards_false",
    "Scallop.Plan.c122_wildcards_panic_false",
    "Scallop.Plan.c122_wildcards_ignored_false"
   ],
   "note": "proved for all histories and imports: which relations are warned about, that each is named once, that rejected sources leave no trace, that computed relations are never warned about; which wildcards are rejected. Refuted: that warnings are about the source that is compiled, that relations computed by the importing file are not warned about, that rejected sources print nothing, that the place is in the source that uses the relation, that wildcards are rejected wherever a value is needed. Missing: cycles of imports, relations used by what other transformations add"
  },
  {
   "property": "C123",
   "status": "partial",
   "theorems": [
    "Scallop.Macro.c123_nothing_lost",
    "Scallop.Macro.c123_places",
    "Scallop.Macro.c123_exact_partial",
    "Scallop.Macro.c123_delimiter_false",
    "Scallop.Macro.c123_bytes_false"
   ],
   "note": "proved for all tokens and groups: no panic, all tokens in order with only spaces added; for tokens of one line with characters of one byte: each on its line and at most one column too far, exact if no closing delimiter is behind a space or first on its line. Refuted: that tokens written apart stay apart, behind a closing delimiter with a space before it and behind characters of several bytes. Missing: literals over several lines"
  },
  {
   "property": "C124",
   "status": "partial",
   "theorems": [
    "Scallop.Front.c124_check",
    "Scallop.Front.c124_accepted",
    "Scallop.Front.c124_right",
    "Scallop.Front.c124_rule",
    "Scallop.Front.c124_message_false",
    "Scallop.Front.c124_ignored_false",
    "Scallop.Front.c124_rule_false"
   ],
   "note": "proved for all bodies: the message is given exactly for the aggregations v := forall(b) where b is not an implication, at any depth; in accepted bodies every forall, also the quantifiers, is over an implication and none is left; bodies with only such are not refused for forall; rules of one aggregation fare as the aggregation they stand for. Refuted: quantifiers over something else get another message; _ := forall(a implies b) and every rule rel r = forall(...) are refused as an unknown aggregate"
  },
  {
   "property": "C125",
   "status": "partial",
   "theorems": [
    "Scallop.Destr.c125_body",
    "Scallop.Destr.c125_head",
    "Scallop.Destr.c125_fact",
    "Scallop.Destr.c125_heads_false",
    "Scallop.Destr.c125_negated_false"
   ],
   "note": "proved for all atoms of bodies, single heads and facts, all nestings: the conjunction that replaces the atom can be made true exactly if there are values that match. Refuted: patterns in one of several heads and in negated atoms make the compiler panic"
  }
 ]
}
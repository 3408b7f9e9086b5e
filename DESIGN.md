# Formal model of scallop-lang/scallop in Lean 4 — design

This file says, for each property in `properties.jsonl`, what is modelled and how it is proved. It also states the trusted base
and every place where the code was found to disagree with the property a user relies on.

## 1. Trusted base

* Lean 4.33.0's kernel. Every theorem depends at most on `propext`, `Classical.choice` and `Quot.sound` (section 7 lists the axioms of each
  theorem). No own axioms, no `sorry`, no `native_decide`, no `bv_decide`. Concrete witnesses are checked with `decide +kernel`, that is by
  kernel computation.
* The faithfulness of the model: each definition under `lean/Verif/Model/` cites the file and lines of `/repo` it models, and says where it
  simplifies. The link between Rust text and Lean text is by reading; it is not machine-checked. `seeded/LOG.jsonl` records edits of the model of
  the kind a bug would make, and which theorems stop proving.
  How to read it: `caught` means that the build stopped, and `theorems_failed` are the declarations at which it stopped. In 274 of the
  1330 caught edits a property theorem (`Verif/Props`) is among them. In the other 1056 only helper lemmas are: modules that
  import them were not built, so the log does not show by itself that the property theorem is false of the edited model; a proof script can
  also break on an edit that keeps the property. That happened for the 18 caught edits whose entry says that they are harmless,
  equivalent or break no claim (cl6, P03, P13, P37, P38, P50, P51, P68, P69, P19, Q31, Q44, S14, T19, T27, Z46, ZR35, YA11); they are no evidence for the strength of a theorem. The `survived` edits are the ones that led to tightened or added theorems, or are equivalent.
* Libraries, taken by contract:
  * stable `sort`, `Vec`, `BTreeMap`, `BTreeSet`, `HashMap`, `HashSet` by their documented meaning; the iteration order of hash sets is an arbitrary
    function wherever it can be observed;
  * `BinaryHeap::pop` returns a largest element and leaves the others (`Spec/Heap.lean`, `Spec/TopK.lean`, `Plan.Search.Lawful`);
  * petgraph's `kosaraju_scc` returns the strongly connected components (in any order), `has_path_connecting` decides reachability
    (`Spec/Strat.lean`); the order in which it iterates edges is modelled as the library does it;
  * itertools' `multi_cartesian_product`, `powerset` and `combinations` by their documented meaning;
  * chrono's bounds of a `Duration`; what the regular expressions of the duration parser capture is the input of the model.
* Floats: probability and weight tags are elements of an ordered field or commutative ring instead of IEEE doubles: no NaN, no rounding, no
  infinities unless said. Floats as *values* are an abstract record of operations (`Ext`); where exactness of equality is needed it is a
  hypothesis (`ExactFloats`).
* Machine integers are bounded integers with the range of their type; overflow of operators that do not saturate is a panic (what a debug build
  does). Counters (`usize` identifiers) do not wrap unless said.

## 2. Layout

* `Verif/Model/*.lean` — model of the code, function by function, with citations. Panics are explicit `none`/error values.
* `Verif/Spec/*.lean`  — small specifications (meaning of a collection, of a rule, of a formula, of a plan), not using the model's helpers.
* `Verif/Proof/*.lean` — helper lemmas.
* `Verif/Props/*.lean` — the property theorems, each followed by `example`s showing that a concrete case meets its hypotheses. A property that is
  false of the code is *refuted* by a theorem with a concrete witness and kept as a `_partial` theorem under the conditions that exclude it.

## 3. Property by property

`S` is the status in `MANIFEST.json` (P proved, ~ partial, n/a not applicable). Theorem names are without the prefix `Scallop.`.

| id | S | property | modelled | how it is proved | theorems |
|----|---|----------|----------|------------------|----------|
| C01 | P | Building a collection deduplicates and combines tags | `from_vec`: sort, in-place compaction on arrays with swap | loop invariant on the compaction loop; refinement to the sum of the tags of the occurrences — In-place compaction loop, never panics. | `c01_from_vec`, `c01_from_vec_tuples` |
| C02 | P | Merging two collections is a tag-adding union | `merge` with all its paths | induction on the two lists; refinement to pointwise sum of tags | `c02_merge`, `c02_merge_any` |
| C03 | P | Inserting one element keeps the collection sorted and unique | `insert` with galloping | C05 at position 0 and list surgery | `c03_insert`, `c03_insert_unchecked` |
| C04 | P | Retain is an order-preserving filter | `retain` loop with swaps | loop invariant; refinement to a filter | `c04_retain` |
| C05 | ~ | Galloping search finds the boundary | `gallop_index` | invariants of the doubling and the halving loop; witness against start positions > 0 — Holds at start position 0; false for start positions > 0 as used by the schedulers: the guard looks at slice[0] (bug in the code). | `c05_gallop_index_partial`, `c05_gallop_index_false` |
| C06 | P | No derived fact is lost between iterations | `Relation::changed`, all schedulers | set-level refinement from C02 and C04 — Set level; tags are C51. | `c06_changed_lfp`, `c06_changed_any`, `reachable_wf` |
| C07 | P | Completed relation returns every fact once | `Relation::complete` | fold of C02 | `c07_complete` |
| C08 | P | Depth-first scheduling loses no fact | depth-first scheduler | set-level refinement | `c08_dfs` |
| C09 | P | A* and beam scheduling lose no fact | A* and beam scheduler | set-level refinement; witness for beam size 0 — Beam size 0 schedules nothing and stops (witness theorem). | `c09_astar`, `c09_beam`, `c09_beam_zero_stuck` |
| C10 | P | Join computes the relational join | join: cursors, galloping, both nested loops | refinement to a list comprehension on sorted batches | `c10_join` |
| C11 | P | Intersection computes the set intersection | intersection cursors | refinement; witness for repeated tuples — Collections are duplicate free; for operands sorted in place that repeat a tuple, contributions are lost (witness theorem). | `c11_intersect`, `c11_duplicates_lost` |
| C12 | P | Product computes the cartesian product | product iterator | refinement | `c12_product` |
| C13 | P | Difference removes or down-weights exactly the subtracted tuples | difference cursors | refinement | `c13_difference`, `c13_difference_mem` |
| C14 | P | Anti-join keeps exactly the left tuples with no matching key | antijoin cursors | refinement | `c14_antijoin`, `c14_antijoin_no_negation` |
| C15 | P | Semi-naive deltas are complete | stable/recent combinations of all binary dataflows | induction over dataflow trees, algebra of bags; witness for differences below joins — Whole dataflow trees, bags with tags. Differences below joins are incomplete (witness); the compiler does not emit that shape. | `c15_semi_naive`, `c15_semi_naive_negation`, `c15_join_over_difference_incomplete` |
| C16 | P | A stratum computes the least fixed point | iteration of a stratum over relations with dataflow trees, all schedulers | invariant: stable part closed; least fixpoint by induction on rounds — All schedulers; hypothesis: early discarding drops no tag (always true of unit provenance; soundness holds without it). | `c16_least_fixpoint`, `c16_sound`, `c16_no_panic` |
| C17 | ~ | Evaluation terminates over finite domains | the same, with finite sets of derivable tuples | measure on the pairs (relation, tuple); witness that the galloping bug makes a program run forever — Proved when no scan gallops (in particular relations of at most 8 tuples). Refuted in general: a program with 22 derivable tuples that never terminates, because the galloping search skips its starting index. | `c17_terminates_partial`, `c17_terminates_small_partial`, `c17_terminates_false` |
| C18 | P | The iteration limit bounds the work and keeps results sound | iteration limit | induction on rounds — Second theorem: with the depth-first scheduler completing after a limit panics (finding). | `c18_iteration_limit`, `c18_dfs_limit_panics` |
| C19 | P | Stratification respects dependencies | dependency graph, `stratify` work-list | invariant of the work-list; graph reachability — kosaraju_scc is taken by its contract (the strongly connected components, in any order) | `c19_partition`, `c19_order`, `c19_rules`, `c19_recursive` |
| C20 | P | Programs with negative cycles are rejected, others accepted | check of negative cycles | contradiction from a cycle in the condensation; independence of library orders | `c20_rejects`, `c20_deterministic` |
| C21 | P | Compiled decision diagram is equivalent to the formula | SDD arena: apply, negate, conjoin, disjoin, garbage collection, evaluation | invariant of the arena per vtree node (partitions), induction on the vtree — total correctness of building (no panic) and evaluation, all vtree kinds, with and without garbage collection | `c21_eval` |
| C22 | P | Weighted model count is exact | generic evaluation of SDDs in a semiring, gradients | induction along the invariant of C21; polynomial derivative — over any commutative ring; gradient over any ordered field | `c22_count`, `c22_gradient` |
| C23 | P | Variable trees contain each variable exactly once | vtree constructors | induction | `c23_leaves` |
| C24 | P | Min-max probability is a distributive lattice with involution | min-max, unit, boolean, probability tags | algebraic laws over an ordered field — Over an ordered field (no rounding). | `c24_semiring`, `c24_lattice`, `c24_negation` |
| C25 | P | Boolean, natural and tropical tags form commutative semirings | boolean, natural, tropical tags | algebraic laws; permutation invariance of sums — The last theorem shows add-mult-prob (which clamps) is not a semiring. | `c25_boolean`, `c25_natural`, `c25_tropical`, `c25_order_irrelevant`, `c25_add_mult_prob_not_distributive` |
| C26 | P | Proof tags denote Boolean combinations of facts | proof sets, histories of tagging | Boolean world semantics, induction on histories — Also whole histories with tagging interleaved. | `c26_add`, `c26_mult`, `c26_constants`, `c26_history`, `c26_semiring` |
| C27 | P | Top-k proofs under-approximates and keeps at most k proofs | `top_k_add`, `top_k_mult` | semantic inclusion in worlds, induction on histories — Histories: implication for histories without negation. | `c27_add`, `c27_mult`, `c27_history`, `c27_at_most_k` |
| C28 | P | Negation of a top-k tag never overlaps it | `cnf2dnf_k`, `top_k_negate` | loop invariant, De Morgan in worlds — The last theorem is a witness that the conjunctions kept are not the most probable ones. | `c28_negate`, `c28_terminates`, `c28_negate_not_best` |
| C29 | P | Conflicting conjunctions are discarded, consistent ones kept | clauses: merge, validity, exclusions | refinement to sets of literals | `c29_merge`, `c29_merge_fails`, `c29_valid`, `c29_conflict`, `c29_no_panic` |
| C30 | ~ | Constant folding preserves rules | constant folding | preservation of derivations of a rule; witnesses — exact for every rule that creates no entity from constants only, assuming exact float equality; the full claim is refuted (entity lost, symbols compared at compile time panic, NaN) | `Back.c30_partial`, `Back.c30_panics`, `Back.c30_entity_lost`, `Back.c30_symbol_panic`, `Back.c30_nan` |
| C31 | ~ | Constant propagation preserves rules | constant propagation | preservation of derivations; witness — never loses a derivation; exact when no assigned variable is equated with a constant; the full claim is refuted by a witness | `Back.c31_partial`, `Back.c31_complete`, `Back.c31_constraint_lost` |
| C32 | ~ | Equality propagation preserves rules | equality propagation | preservation of derivations; witness — never loses a derivation; exact when equalities share no variables; the full claim is refuted by a chain of two equalities | `Back.c32_complete`, `Back.c32_partial`, `Back.c32_chain_broken` |
| C33 | ~ | Projection fusion preserves results | `Expr::compose`, project cascade | evaluation homomorphism; witnesses — exact when outer projections read whole components and inner ones are never undefined; both conditions are necessary (two refutations) | `c33_partial`, `c33_compose`, `c33_normal`, `c33_nested_access`, `c33_undefined_column` |
| C34 | ~ | Arithmetic in rule bodies can be inverted | inverted assignments of flattened arithmetic | arithmetic on bounded integers; witnesses — right for additions and for the first operand of subtractions when nothing saturates; refuted for the second operand of subtractions, for saturating arithmetic and for strings | `Front.c34_add_partial`, `Front.c34_sub_partial`, `Front.c34_sub_second_operand`, `Front.c34_sub_false`, `Front.c34_saturation`, `Front.c34_strings` |
| C35 | P | Rule bodies are normalised faithfully | disjunctive normal form | induction over formulas | `Front.c35`, `Front.c35_no_panic` |
| C36 | P | Negation and implication are rewritten faithfully | negation, implication, quantifier rewriting | induction over formulas — negating a constraint panics (last theorem): the claim is about formulas the compiler accepts | `Front.c36_negate`, `Front.c36_negate_undefined`, `Front.c36`, `Front.c36_terminates`, `Front.c36_accepts`, `Front.c36_constraint_panics` |
| C37 | P | Counting over uncertain facts covers all worlds | count, sum, product over possible worlds | sum over subsets; soundness and completeness of tags in worlds — exact for provenances whose tags determine truth exactly (fuzzy tags other than 1/2, 0/1 probabilities), sound for top-k proofs | `Agg.c37_count`, `Agg.c37_count_sound`, `Agg.c37_sum_prod`, `Agg.c37_sum_prod_sound`, `Agg.c37_no_panic`, `Agg.c37_discrete`, `Agg.c37_sum_prod_bool`, `Agg.minMax_exactIn`, `Agg.addMult_exactIn`, `Agg.topK_soundIn` |
| C38 | P | Existence aggregation is exact | exists | as C37 | `Agg.c38_exists`, `Agg.c38_exists_sound`, `Agg.c38_discrete` |
| C39 | ~ | Minimum and maximum over uncertain facts are exact | min, max, argmin, argmax | as C37; witness for ties — ties are lost by argmin/argmax of the code except at the smallest value (refuted); everything else proved | `Agg.c39_min_max`, `Agg.c39_min_max_sound`, `Agg.c39_arg_sound`, `Agg.c39_arg_partial`, `Agg.c39_discrete`, `Agg.c39_discrete_plain`, `Agg.c39_bool`, `Agg.c39_ties_lost`, `Agg.c39_no_negation` |
| C40 | P | Top-k sampling returns k heaviest facts | top-k sampler | contract of the heap; induction — BinaryHeap::pop is taken by its contract | `Agg.c40_top_k`, `Agg.c40_aggregate` |
| C41 | P | Range predicate enumerates the half-open interval | range iterator | induction on the distance | `Agg.c41_range` |
| C42 | P | Allocated identifiers are never reused | identifier allocator | invariant over histories — No wrap-around of the counter is modelled. | `c42_unique`, `c42_increasing` |
| C43 | ~ | Parsed durations have the value written | duration parser after the regular expressions | exact rational specification; witnesses — exact unless a number with decimals is negative (refuted); at the end of the range of durations the parser panics instead of reporting an error; the regular expressions are not modelled | `Dur.c43_partial`, `Dur.c43_number`, `Dur.c43_minutes_months`, `Dur.c43_units`, `Dur.c43_names`, `Dur.c43_negative_decimal`, `Dur.c43_overflow_panics` |
| C44 | P | Dual numbers compute exact derivatives | dual numbers, dense and sparse | Mathlib's formal partial derivatives; witness for clamping — Derivative = Mathlib's formal partial derivative of the polynomial. The last theorem shows that clamping in add-mult-prob does not adjust the gradient. | `c44_gradient`, `c44_gradient_dense`, `c44_add_mult_prob`, `c44_max_min`, `c44_clamp_gradient` |
| C45 | ~ | Stable batches stay geometric | sizes of stable batches | invariant over `changed`; witness — Holds for provenances whose tags always saturate; false otherwise (witness reachable state). | `c45_geometric_partial`, `c45_log_batches`, `c45_geometric_false` |
| C46 | P | Constant-key lookup finds exactly the matching tuples | find | C05 at position 0 | `c46_find` |
| C47 | P | Duplicate temporary relations are merged safely | RAM dedup of temporaries, stop condition | bisimulation of runs, for any meaning of operators — for temporaries with one definition each, as the compiler creates them (necessary: last theorem). Operators that are not functions of the relation states (random sampling, fresh exclusion identifiers) are outside the model | `Ram.c47`, `Ram.c47_stop`, `Ram.c47_terminates`, `Ram.c47_second_definition_lost` |
| C48 | P | Column permutation is invertible and order-aware | column permutations, order-preserving test | evaluation of the generated expressions on tuples; order by induction on shapes — the order is preserved weakly: columns left out can make tuples equal (last theorem) | `Plan.c48_readback`, `Plan.c48_injective`, `Plan.c48_order_preserving`, `Plan.c48_repetitions` |
| C49 | P | Mutually exclusive facts are never jointly used | exclusions in proof sets and top-k proofs | invariant over histories | `c49_proofs`, `c49_top_k` |
| C50 | P | Gradient-free composition: pairing provenances is componentwise | pairing of provenances | componentwise homomorphism | `c50_componentwise`, `c50_semiring`, `c50_discard` |
| C51 | ~ | Each fact is stored once with its combined tag | tags under the default scheduler | invariant; witness (galloping) — False when the pending batch is more than 4 times longer than a stable batch (galloping bug C05). | `c51_unique_tags_partial`, `c51_unique_tags_false` |
| C52 | ~ | Sample-k proofs under-approximates | sample-k proofs | world semantics; witness for products — False for products: the code calls `or` where it should conjoin (refuted for every k >= 2 and every sample). Proved for sums. | `c52_add_sound_partial`, `c52_mult_unsound` |
| C53 | P | Reported probabilities are exact for the proofs kept | weighted model count of kept proofs: formula, vtree, SDD, count | C21, C22, C23 composed; probability as a sum over worlds | `c53_dnf`, `c53_topk_output`, `c53_topk_lower_bound` |
| C54 | ~ | Counting with mutual exclusions never invents probability | count with mutual exclusions | as C53; witness — false in the code: exclusion constraints are disjoined to the formula | `c54_refuted`, `c54_no_exclusions_partial`, `c54_actual` |
| C55 | P | Removing unused relations keeps all an output needs | removal of unused relations | reachability closure — has_path_connecting is taken by its contract | `c55_remove_unused` |
| C56 | ~ | Integer averages | integer averages | witness of division by zero; the rest by computation on groups — the multi-world average of integers always divides by zero in the code | `Agg.c56_avg_partial`, `Agg.c56_avg_panics`, `Agg.c56_avg_count_overflow` |
| C57 | P | Fuzzy counts have the right degree | fuzzy count | greedy argument on sorted degrees | `Agg.c57_count_min_max`, `Agg.c57_counts` |
| C58 | P | Grouping partitions facts by key | grouped aggregation: single, implicit, join | cursor invariant; refinement to filtering by key | `Agg.c58_implicit`, `Agg.c58_join`, `Agg.c58_single` |
| C59 | P | Ranking, sorting and enumeration number each fact once | enumerate, rank, sort | permutation and numbering | `Agg.c59_enumerate`, `Agg.c59_rank`, `Agg.c59_sort` |
| C60 | P | Optimizing a rule terminates and loses no answers | the driving loop of the rule passes, trivial-literal passes | measure; composition of C30–C32 — c60_partial is the additional exactness statement for plain rules | `Back.c60_terminates`, `Back.c60_complete`, `Back.c60_partial`, `Back.c60_true_false`, `Back.c60_empty_rule` |
| C61 | P | A tag summarises all derivations of a fact | boolean, natural, tropical, min-max, max-mult tags | induction on histories: tag = aggregate over derivations — arithmetic without overflow or rounding | `c61_boolean`, `c61_boolean_minus`, `c61_natural`, `c61_natural_count`, `c61_tropical`, `c61_min_max`, `c61_max_mult`, `c61_real_tropical`, `c61_real_tropical_semiring`, `c61_tropical_proofs_number` |
| C62 | ~ | Only impossible facts are discarded | `discard` of the provenances | case analysis; witness — false for real tropical proofs, which drops every fact derived without a variable; proved for the others listed in the theorems | `c62_discard_zero`, `c62_discard_diff`, `c62_discard_proofs`, `c62_tropical_proofs_refuted` |
| C63 | P | Noisy-or probabilities and min-max derivatives are right | nand tags, min-max derivatives | polynomials, neighbourhoods of inputs without ties | `c63_noisy_or`, `c63_noisy_or_gradient`, `c63_noisy_or_not_distributive`, `c63_min_max_derivative` |
| C64 | P | Operators compute what they say | `eval_binary`, `eval_unary` | case analysis over all types — floating point is a parameter of the model | `Front.c64_add_sub`, `Front.c64_mul`, `Front.c64_div_mod`, `Front.c64_float_div`, `Front.c64_div_defined`, `Front.c64_div_panics`, `Front.c64_compare`, `Front.c64_other`, `Front.c64_no_mixing`, `Front.c64_closed`, `Front.c64_add_not_associative` |
| C65 | ~ | A compiled rule derives what its text says | whole front end from surface rule to back rules | composition of C35, C36, C66–C68, C67 — for bodies in which forall applies to an implication, negated arguments have values, patterns are not nested, inclusive ranges end below the largest integer; the extra inverted assignments are left out (C34) | `Front.c65_partial` |
| C66 | ~ | Patterns match the values they describe | `case … is` desugaring | induction on patterns; witness — proved for one pattern of any depth; refuted for two nested patterns on one variable in one body | `Front.c66_partial`, `Front.c66_two_patterns` |
| C67 | P | Nested expressions are flattened faithfully | flattening of expressions | fresh variables, induction on expressions — without the inverted assignments (C34); wildcards nested in arguments of negated atoms excluded, for the reason given by the second theorem | `Front.c67`, `Front.c67_nested_wildcard` |
| C68 | ~ | Ranges contain what they say | range desugaring | computation; witness — false when an inclusive range ends at the largest integer | `Front.c68_partial`, `Front.c68_inclusive_max` |
| C69 | ~ | A rule with several heads is the rules with each head | conjunctive heads | rule by rule; witness — refuted for bodies with sugar: the compiler panics | `Front.c69_partial`, `Front.c69_sugar_panics` |
| C70 | P | Every rule gets a plan that reads each of its atoms once | search for the order of atoms (arcs, states, beam), plan construction | invariant of the search queue (visited atoms), permutation of indices — for rules without foreign predicates; the powerset the search enumerates makes it exponential in the number of atoms | `Plan.c70_search`, `Plan.c70_plan` |
| C71 | ~ | Nothing written in a rule's body is ignored | plan construction: which literals are applied when | invariant `Built` of the construction; closure at the fixpoint; witnesses — proved under the conditions RuleOk and up to assignments to variables with another source; each condition left out is refuted by a rule; rules with foreign predicates are not covered by the positive theorem | `Plan.c71_partial`, `Plan.c71_bound_assign_refuted`, `Plan.c71_two_assigns_refuted`, `Plan.c71_unused_assign_refuted`, `Plan.c71_new_constraint_refuted`, `Plan.c71_negated_foreign_refuted`, `Plan.c71_stale_variables_refuted`, `Plan.c71_foreign_assign_refuted`, `Plan.c71_chained_new_refuted`, `Plan.c71_foreign_input_refuted` |
| C72 | ~ | Executing a plan computes the plan | `plan_to_ram_dataflow` and all node translations, variable tuples, permutations, temporaries | induction over plans with goals: representation of assignments by shaped tuples; witnesses — proved for plans that meet Fits, including foreign predicates; each condition is refuted where left out | `Plan.c72_partial`, `Plan.c72_blind_intersect_refuted`, `Plan.c72_file_repeated_refuted`, `Plan.c72_repeated_variable_refuted`, `Plan.c72_other_group_by_refuted` |
| C73 | ~ | A rule derives what it says after planning | `plan_to_ram_update`: atomic, aggregate and disjunctive heads | composition of C71 and C72 — from C71 and C72; exact when no variable with another source is assigned to; disjunctive heads with a repeated variable refuted | `Plan.c73_partial`, `Plan.c73_exact`, `Plan.c73_disjunctive_repeated_refuted` |
| C74 | P | Operators that walk sorted inputs get sorted inputs | the same, with the order of tuples | induction over plans: operands are relations, temporaries or order-preserving images — given that relations are stored sorted (C01-C04) | `Plan.c74`, `Plan.c74_unsorted_without_copy` |
| C75 | ~ | A compiled program holds what its rules define | `strata_to_ram_strata`, `stratum_to_ram_stratum`: temporaries, permuted copies, placement of negated operands | every relation in one stratum (names), reads only backwards; per stratum the least fixpoint with auxiliary relations equals the least fixpoint of the rules; induction over strata — proved for programs that meet ProgramOk (the conditions of C73 for every rule, stratification as in C19, and NoChain); that compilation succeeds is a hypothesis; without NoChain refuted: a relation made for a negated atom with a repeated variable and a constant is in no stratum | `Plan.c75_partial`, `Plan.c75_unique_partial`, `Plan.c75_layered_partial`, `Plan.c75_unplaced_refuted` |
| C76 | P | Executing a program computes what it defines | `incremental_execute_helper`, `execute_stratum`, `stratum_inputs_outputs`, `build_dynamic_dataflow`; storages; execution from a kept database | the dataflow built for a rule means what the rule's dataflow means (induction on dataflows); C16 gives the least fixpoint per stratum; invariant over strata: kept results are those of the model, what is read later is kept — for provenances in which what is negated is removed (or programs without negation, any provenance) and aggregates that do not look at tags; relations stored sorted; termination (C17) is a hypothesis | `Exec.c76_execution` |
| C77 | ~ | A run sees all facts given so far | extensional and intentional databases, `DynamicExecutionContext`, `IntegrateContext::{add_facts, run, computed_relation}`, `Interpreter::run` | histories as an inductive relation; invariant: the extensional database holds what was given; then C76; witnesses — proved for contexts with incremental maintenance, and for the first successful run of any context; refuted for default contexts (facts are lost in the second run), for failed runs (results are lost), for execute and the interpreter (stale results, or a panic) | `Exec.c77_history_partial`, `Exec.c77_refuted_default`, `Exec.c77_refuted_failed`, `Exec.c77_refuted_execute` |
| C78 | ~ | Running again changes nothing | the same | collections made again of their own elements are unchanged if addition is associative, commutative and idempotent; execution is a function; witness — proved for incremental maintenance and idempotent addition of tags; refuted for tags that count | `Exec.c78_rerun_partial`, `Exec.c78_refuted` |
| C79 | ~ | Adding facts is all or nothing | `add_facts` of the three interfaces, `check_tuples_type` | case analysis; witness — proved for the integration contexts (types checked before the call); refuted for execution contexts that check types in the database: results are dropped before the check | `Exec.c79_atomic_partial`, `Exec.c79_refuted` |
| C80 | ~ | Compiled and executed, rules hold what they define | the composition of planning, translation, stratification and execution | what the translation emits meets the conditions of C76 (sorted operands, negation only of earlier relations, every relation in one stratum); C75 and C76 — missing: rules with foreign predicates, atoms that repeat a variable and have no constants, `no_temp_relation`, indexed storage; negation only where the provenance removes what is negated, aggregates only where results do not depend on tags; that the compilation succeeds and the execution ends are hypotheses | `Exec.c80_program_partial` |
| C81 | ~ | Tags say in which worlds a derived fact holds | strata with the default scheduler; boolean, min-max, proof and top-k provenance | `Spec/Worlds.lean`: a world makes tags true or false; invariant of the loop: in the world, what is known is derivable, and what is known is closed under the rules up to what is recent; scans that saturate, move or miss tuples keep truth in the world; conjunctions over n facts are at most 4^n, so large k is exact; C53 for probabilities; witness for the loss of tags — exact in full for boolean and min-max tags; for proofs and top-k proofs exact in runs in which no scan gallops (refuted otherwise) and sound in all; one stratum, default scheduler, no operator that resets tags | `c81_worlds_partial`, `c81_sound`, `c81_boolean`, `c81_min_max`, `c81_proofs_partial`, `c81_top_k_sound`, `c81_top_k_partial`, `c81_probability_bound`, `c81_probability_partial`, `c81_false` |
| C82 | ~ | Executed programs say in which worlds each result holds | `incremental.rs` (execution of all strata) with tags; boolean, min-max and top-k provenance | `Spec/WorldExec.lean`: the program of a world has the same strata over the true facts; invariant over strata: in the world every relation holds what its stratum defines given the earlier ones; C81 for each stratum; for negation the operators are exact if what is subtracted has each tuple once; witness for a rule with a wildcard. Aggregations (`Spec/WorldAgg.lean`, `Model/AggRuntime.lean`): in a world an aggregate is a function of the list of true tuples; the three ways of grouping are exact if the aggregator is, and the aggregators are by the folds of C37-C39 in one world — refuted for negated atoms with wildcards, of which only the first tuple with a given key is subtracted; exact for boolean and min-max tags when what is subtracted has each tuple once, and for top-k proofs with large k in runs in which no scan gallops; sound for all k without negation. With aggregations (c82_aggregates_partial and its instances): exact for count, exists, min, max and every aggregator that goes through all sets of facts; refuted for counts over groups made of the counted tuples, which report 0 for groups that do not exist in the world (c82_implicit_count_false). Missing: exclusions, other schedulers, groups overwritten with tag 1, aggregators with arguments and samplers inside programs | `Exec.c82_worlds_partial`, `Exec.c82_model`, `Exec.c82_sound`, `Exec.c82_boolean`, `Exec.c82_min_max`, `Exec.c82_top_k_partial`, `Exec.c82_probability_partial`, `Exec.c82_probability_bound`, `Exec.topKProv_uniform`, `Exec.c82_aggregates_model`, `Exec.c82_aggregates_partial`, `Exec.c82_aggregators_exact`, `Exec.c82_boolean_aggregators`, `Exec.c82_boolean_aggregates_partial`, `Exec.c82_top_k_aggregators`, `Exec.c82_top_k_aggregates_partial`, `Exec.c82_probability_aggregates_partial`, `Exec.c82_implicit_count_false`, `Exec.c82_false` |
| C83 | ~ | Programs of rules mean the same in every possible world | C75 and C82 together: `query_plan.rs`, `b2r.rs`, `incremental.rs` with tags | `Spec/WorldProgram.lean`: what the rules define over the true facts; induction over plans and strata: every subtracted dataflow reads a relation through projections that are injective on what it can hold; the bound on what relations can hold is the least one closed under the compiled rules without subtractions; then C75 in each world and C82 — C75 and C82 composed; that what compiled rules subtract has each tuple once is proved, not assumed (negated atoms have no wildcards, see c82_false). Missing: aggregates, disjunctive heads, foreign predicates, magic-set predicates, repeated variables in an atom, runs in which a scan gallops for top-k proofs | `Exec.c83_worlds_partial`, `Exec.c83_model_partial`, `Exec.c83_compiled_partial`, `Exec.c83_sound_partial`, `Exec.c83_boolean_partial`, `Exec.c83_min_max_partial`, `Exec.c83_top_k_partial`, `Exec.c83_probability_partial`, `Exec.c83_probability_bound_partial`, `Exec.pathRules_compiled`, `Exec.pathRules_positive`, `Exec.c82_false` |
| C84 | ~ | Accepted rules derive finitely many facts | `front/analyzers/boundness` (dependencies of expressions and atoms, fixpoint, rules) | `Spec/Boundness.lean`: solutions of a body, finite databases; invariant of the fixpoint: an expression marked as bound takes finitely many values over the solutions, resp. at most one over the solutions that match the atoms in one way (sums with a known operand are injective on proper values); termination: each round marks a new expression; conjunctions meet by union, disjunctions by intersection; an aggregation ranges over a finite set of tuples, so over all groups finitely many sets and arguments, hence finitely many results — sound for rules without aggregations, and for rules with aggregations that are not nested and without a demand pattern (also: each aggregation ranges over finitely many tuples): finitely many facts, and (not counting sums clipped to their type) at most one for each way to match the atoms; negated atoms and functions are arbitrary; refuted for the values of variables that occur only in negated atoms, and for foreign predicates that are given a wildcard as input (accepted, and then left out of the plan), and for aggregations that bind a variable with the name of a demanded one. Missing: nested aggregations, aggregations together with demand patterns, where clauses with variables that are not listed, copies of expressions that share an identifier | `Front.c84_partial`, `Front.c84_aggregations_partial`, `Front.c84_count`, `Front.c84_sums_cancel`, `Front.c84_differences_cancel`, `Front.c84_strings_cancel`, `Front.c84_ends`, `Front.c84_accepts`, `Front.c84_negated_refuted`, `Front.c84_foreign_wildcard_refuted`, `Front.c84_shadow_refuted`, `Plan.c71_foreign_input_refuted` |
| C85 | ~ | Computing relations on demand does not change results | `back/optimizations/demand_transform.rs` | `Spec/Demand.lean`: on-demand relations, variables known after n rounds of lookups, stratified programs; the loop that orders lookups is specified by those rounds; simulation by induction over strata and derivations: facts of the rewritten program are facts of the program, and facts that are demanded are derived; witnesses for lost facts and lost stratification — refuted in general: negated on-demand atoms become positive in demand rules, negated atoms are kept in demand rules where their variables are not known, demands that cannot be computed are dropped without an error, and stratified programs may be rewritten to programs that are not. Proved, for any initial demands, for programs that are stratified before and after, where every on-demand atom can be given its arguments and negated on-demand atoms are looked up last; aggregations do not look at on-demand relations directly. Missing: tags | `Plan.c85_partial`, `Plan.c85_has_model`, `Plan.c85_demand_rules_bound`, `Plan.c85_rejects`, `Plan.c85_unbound_negated_refuted`, `Plan.c85_negated_refuted`, `Plan.c85_dropped_refuted`, `Plan.c85_stratification_refuted` |
| C86 | ~ | Type inference ends, and merges types exactly | `front/analyzers/type_inference` (`type_set.rs`, `unification.rs`, `local.rs`, `type_inference.rs`) | the order of type sets is a forest, merging is its meet; each pass lowers the type of some location, and a location can be lowered at most seven times; witness of a program on which every pass changes something by the test used — refuted for the set of the unsigned integer types, which only user-defined foreign functions can mention: it is not compared with base types and is taken to differ from itself, so u32 is refused and inference may run forever. Proved otherwise, with a linear bound on the passes. Missing: aggregates in rules | `Ty.c86_merge_exact`, `Ty.c86_refused_disjoint_partial`, `Ty.c86_refused_disjoint_false`, `Ty.c86_inference_ends_partial`, `Ty.c86_inference_ends_false` |
| C87 | ~ | Accepted programs compute values of the inferred types | type inference, literals, the cases of casts; operators of C64 | `Spec/TypeInfer.lean`: evaluation, type errors, derivations; a result that the last step does not change satisfies the equation of each unification (descent: no step can raise a type); induction over derivations and expressions; settled results give values the types of such a fixed point — refuted in general: the last, strict step chooses types rule by rule in program order, so relations get types that disagree; and -, %, and casts are accepted at types for which the runtime has no case. Proved when repeating the last step changes no type of a value (a decidable condition) and the operators are supported at their types. Missing: aggregates, destructors, dates and durations | `Ty.c87_derived_typed_partial`, `Ty.c87_no_type_error_partial`, `Ty.c87_constraint_bool_partial`, `Ty.c87_cast_allowed_partial`, `Ty.c87_typed_false`, `Ty.c87_supported_false` |
| C88 | ~ | Declared types are kept | as C86, with the visits of declarations and facts | invariant of passes: types of the arguments of a relation and of its columns are below those the columns started with; locations of different rules are disjoint; below a base type there is only that type — refuted in general: a declared constant used as an argument of an atom replaces the declared type; a declaration that follows facts may drop columns; integer literals wrap. Proved for programs without these, wherever the declaration comes first | `Ty.c88_declared_kept_partial`, `Ty.c88_fact_literals_partial`, `Ty.c88_declared_kept_false`, `Ty.c88_fact_literals_false`, `Ty.c88_literal_wraps`, `Ty.c88_literal_kept_iff` |
| C89 | ~ | Standard functions keep their types and give the mathematical result | `common/foreign_functions/*` with their declared types | case analysis per function; the argument types come from `Spec/TypeInfer.lean`, so that the result discharges the hypothesis of C87 on foreign functions; `$max` and `$min` by induction over the arguments — types: proved for all but $sign, which returns an i32 for a floating point number; panics: $max() without arguments, overflow of $abs and $pow, $substring out of range and $format with the wrong number of arguments; sign of the unsigned zero is one; max and min depend on the order when an argument is NaN. Missing: the functions on dates, tensors and entities | `Foreign.c89_registered`, `Foreign.c89_return_type_partial`, `Foreign.c89_calls_typed_partial`, `Foreign.c89_return_type_false`, `Foreign.c89_no_panic_partial`, `Foreign.c89_no_panic_false`, `Foreign.c89_abs`, `Foreign.c89_sign_partial`, `Foreign.c89_sign_false`, `Foreign.c89_sign_float`, `Foreign.c89_round`, `Foreign.c89_pow`, `Foreign.c89_max`, `Foreign.c89_min`, `Foreign.c89_max_float_partial`, `Foreign.c89_max_float_false` |
| C90 | ~ | String functions and predicates agree with each other | string functions and the four string predicates, on lists of characters with the size of their encoding | decompositions `s = a ++ r ++ b`: a slice exists exactly if such a decomposition has the given sizes; search, split and replace by induction over the string — $string_length, $substring and $string_index_of count bytes, $string_char_at, string_chars and string_index count characters, and string_find counts the start in bytes and adds a number of bytes: proved for all strings within each group and for ASCII strings across them, refuted for others | `Foreign.c90_concat`, `Foreign.c90_length_concat`, `Foreign.c90_char_at_partial`, `Foreign.c90_char_at_false`, `Foreign.c90_substring`, `Foreign.c90_substring_ascii`, `Foreign.c90_substring_parts`, `Foreign.c90_index_of`, `Foreign.c90_index_of_substring`, `Foreign.c90_find_partial`, `Foreign.c90_find_false`, `Foreign.c90_find_all`, `Foreign.c90_chars`, `Foreign.c90_index_partial`, `Foreign.c90_index_false`, `Foreign.c90_split`, `Foreign.c90_replace`, `Foreign.c90_format`, `Foreign.c90_trim`, `Foreign.c90_case` |
| C91 | ~ | Soft comparisons give consistent probabilities | `common/foreign_predicates/soft_*.rs` and `scallopy/stdlib.py` over the real numbers | real analysis with Mathlib: exponential, arctangent, derivative of the logistic function, the Cauchy-Schwarz inequality — over the real numbers; soft_eq is the square root of the normalised derivative and is not implemented for three of the four sigmoid functions; of tensors, soft_eq and soft_neq add up to one but are not probabilities; rounding and overflow of floating point numbers are not modelled | `Soft.c91_probability`, `Soft.c91_equal`, `Soft.c91_complement`, `Soft.c91_monotone`, `Soft.c91_soft_eq`, `Soft.c91_soft_eq_false`, `Soft.c91_soft_eq_far`, `Soft.c91_derivative_false`, `Soft.c91_unsigned_false`, `Soft.c91_tensor_partial`, `Soft.c91_tensor_false` |
| C92 | ~ | An entity is the term it was made from | the three ways of making entities and the store of their facts, with an arbitrary hash function of what is written to it | terms of values as specification (`Spec/Entity.lean`): a database shows that an entity is a term; mutual induction over terms; uniqueness from injectivity of what is hashed; the store by permutations; the refutation by the pigeonhole principle — that an entity is its term, and the store, are proved in general; that terms and entities correspond one to one is proved for a run in which the hash does not collide, among strings, and refuted otherwise: 64 bits cannot tell all terms apart, new hashes another name than strings do, and constants hash their place in the source text. Strings may put constructors where numbers are expected, and may not contain symbols. Missing: dates and durations in strings, entities among the variables of new that no fact shows | `Ent.c92_string`, `Ent.c92_accepts_partial`, `Ent.c92_new`, `Ent.c92_const`, `Ent.c92_one_term_partial`, `Ent.c92_strings_partial`, `Ent.c92_string_typed_partial`, `Ent.c92_store`, `Ent.c92_drain`, `Ent.c92_add_string`, `Ent.c92_distinct_false`, `Ent.c92_ways_false`, `Ent.c92_places_false`, `Ent.c92_string_types_false`, `Ent.c92_symbol_false` |
| C93 | ~ | A constant stands for its value wherever it is used | declarations of constants and enumerations, their uses by node numbers, and the replacement | correct programs and unfolding of declarations as specification (`Spec/Constants.lean`); an invariant of the analysis by induction on the items; uniqueness of values from distinct names — acceptance, replacement by the value and the numbers of members are proved for all programs; types for constants declared as literals. Refuted: a constant declared by another constant loses its type, a rule before the declaration has a variable of the name, numbers given to members that are negative are ignored, and the number after the greatest one is the least. Missing: uses inside types and attributes | `Consts.c93_no_panic`, `Consts.c93_accepts`, `Consts.c93_distinct`, `Consts.c93_replaced`, `Consts.c93_left`, `Consts.c93_ground`, `Consts.c93_enum`, `Consts.c93_type_partial`, `Consts.c93_order_false`, `Consts.c93_alias_false`, `Consts.c93_given_false`, `Consts.c93_overflow_false` |
| C94 | ~ | Compiling is all or nothing and loads each imported file once, first | compilation of a source with its imports on contexts that share their analyses through counted references; calls on the interface context | loading of sources on contents alone as an inductive relation (`Spec/Loading.lean`); refinement by induction on nesting with an ownership invariant of the heap; facts about loading by mutual induction; termination by the number of files not imported — atomicity, isolation of clones, termination, order, uniqueness of loads and refusal of cycles are proved for every language; refuted: a file imported by two files is refused as a cycle although there is none, a file given twice by the user is loaded twice, and outputs asked for after a compilation are ignored without an error. Missing: foreign functions and attributes that are registered outside of compiling | `Compile.c94_atomic`, `Compile.c94_no_panic`, `Compile.c94_adds`, `Compile.c94_clone`, `Compile.c94_clones`, `Compile.c94_decides`, `Compile.c94_deterministic`, `Compile.c94_order`, `Compile.c94_imports_first`, `Compile.c94_once`, `Compile.c94_tree`, `Compile.c94_cycle`, `Compile.c94_items`, `Compile.c94_fresh_partial`, `Compile.c94_stuck`, `Compile.c94_diamond_false`, `Compile.c94_twice_false`, `Compile.c94_outputs_false` |
| C95 | ~ | Top-bottom-k tags bound what they stand for from the right side | formulas in both normal forms, the merges, the heap loops of the products, the conversions, and histories of operations | truth of a tag in a world (`Spec/TopBottom.lean`); an invariant of the heap loop; duality of the two forms by flipping the world; a relation kept by all steps of a history — bounds, exactness with room, termination, sizes and output are proved for all operations and histories; the best clauses for sums in order. Refuted: a sum with the empty conjunction, true, is false, without any cutting off; a product does not keep the best; negation of a tag that was cut off is true where it should be false; conjunctions of exclusive facts survive negation. Missing: histories that cut tags off and use negation, where no bound holds | `c95_negate`, `c95_add`, `c95_add_cnf_partial`, `c95_true_false`, `c95_history_true_false`, `c95_mult`, `c95_mult_cnf`, `c95_add_best_partial`, `c95_mult_best_partial`, `c95_best_false`, `c95_history`, `c95_history_exact_partial`, `c95_total`, `c95_at_most_k`, `c95_output`, `c95_lower_bound`, `c95_history_false`, `c95_exclusive_false` |
| C96 | ~ | A tagged rule applies with its probability | the transformation of tagged rules, the types of tags, and the loop of a stratum with the events that the tag predicates register | derivability in a world with the rules whose events are true (`Spec/TaggedRule.lean`); a simulation of the loop between the rules all of whose and some of whose events are true; a list of events as part of the state; concrete runs for the refutations, an invariant of all runs for divergence — soundness for every run; exactness and probabilities for tagged rules that read finished collections, and for min-max probabilities also for recursive rules; the transformation, the types and the place in the plan. Refuted: in recursive rules a tuple gets several independent events, so that probabilities are wrong and programs may not terminate; the events are those of the first atom in the order of joins; tags of type f64 or bool panic. Missing: exactness where events of one rule and tuple disagree | `Tagged.c96_sound`, `Tagged.c96_bounds`, `Tagged.c96_worlds_partial`, `Tagged.c96_one_event`, `Tagged.c96_separate`, `Tagged.c96_min_max`, `Tagged.c96_probability_bound`, `Tagged.c96_probability_partial`, `Tagged.c96_transformed`, `Tagged.c96_head`, `Tagged.c96_tag_types`, `Tagged.c96_evaluate`, `Tagged.c96_types_false`, `Tagged.c96_planned`, `Tagged.c96_planned_expr`, `Tagged.c96_recursive_false`, `Tagged.c96_order_false`, `Tagged.c96_diverges` |
| C97 | ~ | A fact holds with the probability its tag says | the forms of tags, the types of input tags, the conversions, facts as written, and the registration of facts | what a tag says (`DynTag.says`, `Spec/InputTags.lean`); cases for the conversions; an invariant of registration and the probability that independent variables are true together — for each type of input tags exactly which tags are read as they are (all of them by the differentiable provenances with proofs), for all lists of facts the joint probabilities, and the conversions of a cloned context. Refuted: false and probabilities with an identifier are certain with the provenances with proofs, probability 0 is true with Boolean provenance, a tag that is an expression is ignored, a tagged fact with computed arguments never holds, the debugging provenance loses its tags when cloned. | `Input.c97_full`, `Input.c97_exclusive_prob`, `Input.c97_diff_prob`, `Input.c97_float`, `Input.c97_natural`, `Input.c97_bool`, `Input.c97_exclusion`, `Input.c97_with_id`, `Input.c97_false_refuted`, `Input.c97_zero_refuted`, `Input.c97_alternative_prob`, `Input.c97_alternative_choice`, `Input.c97_written_partial`, `Input.c97_untagged_partial`, `Input.c97_expression_refuted`, `Input.c97_computed_refuted`, `Input.c97_clone`, `Input.c97_clone_prob`, `Input.c97_clone_positive`, `Input.c97_clone_choice`, `Input.c97_clone_same`, `Input.c97_clone_refuted`, `Input.c97_internalize`, `Input.c97_probability`, `Input.c97_probability_partial` |
| C98 | ~ | Exactly the alternatives of one choice exclude each other | the numbers of exclusions of the program, of the rules with their map, and of the database | the choice of each position (`choices`, `Spec/InputTags.lean`); an invariant of the map and the counter over all evaluations; the registration of C97; concrete families for the refutations — choices written in a program and calls to a database, and for choices made by rules exactly which alternatives share a number. Refuted: a solution found in two iterations makes two choices; choices written in a program, made by rules and given to a database are numbered from 0 each and exclude each other; alternatives tagged with a Boolean are not exclusive. | `Input.c98_program`, `Input.c98_bool_refuted`, `Input.c98_alternatives`, `Input.c98_numbers`, `Input.c98_choice_partial`, `Input.c98_revisit_refuted`, `Input.c98_origins_refuted`, `Input.c98_database`, `Input.c98_database_refuted` |
| C99 | ~ | Facts in a CSV file are the facts of the relation | contents of files, options, the four ways of loading, the registry of files, relations, writing, symbols | what a cell, a row and a file say (`Spec/Csv.lean`, numerals by their digits); loading as a relation between rows and facts; invariants of the registries; C97 for probabilities — for all contents with distinct headers exactly which facts each way of loading gives and exactly which files are refused; symbols over all histories. Refuted: a file is kept under its path only, so a second relation reads it with the delimiter and header of the first; columns of symbols panic; strings, characters and symbols do not survive being written and loaded again; several facts of one row with a probability are independent. | `Csv.c99_load`, `Csv.c99_value`, `Csv.c99_raw`, `Csv.c99_fields`, `Csv.c99_keys`, `Csv.c99_keys_accepts`, `Csv.c99_rectangular`, `Csv.c99_header`, `Csv.c99_registry_partial`, `Csv.c99_registry_refuted`, `Csv.c99_registry_order_refuted`, `Csv.c99_once`, `Csv.c99_symbol_refuted`, `Csv.c99_roundtrip_partial`, `Csv.c99_roundtrip_string_refuted`, `Csv.c99_roundtrip_char_refuted`, `Csv.c99_probability_partial`, `Csv.c99_row_probability_refuted`, `Csv.c99_symbols`, `Csv.c99_symbols_stable` |
| C100 | ~ | A compiled program computes what the interpreter computes | collections, relations, iteration and operators of the static runtime and the loop that is generated for a stratum | each operator computes the same list as the interpreter's; batches correspond up to order; the invariants of C16 and C81 for the compiled loop; concrete programs for the differences — for all strata of relational operators: soundness, the least fixpoint and the same tuples as the interpreter under any of its schedulers, the same result without tags, soundness of tags in every world, the same batches with the same tags for each rule in each turn, and exactly where merging differs. Refuted: a tuple that comes first in two merged batches keeps one tag only, so tags differ from the interpreter's and depend on the order of rules; facts that would be discarded are kept; a failing expression panics; termination fails as in C17. Aggregations are in C110, expressions in C111. | `Statics.c100_sound`, `Statics.c100_least_fixpoint_partial`, `Statics.c100_same_tuples`, `Statics.c100_same_result_unit`, `Statics.c100_worlds_sound`, `Statics.c100_rules`, `Statics.c100_merge`, `Statics.c100_tags_false`, `Statics.c100_rule_order_false`, `Statics.c100_facts_false`, `Statics.c100_discard_false`, `Statics.c100_failing_expression_false`, `Statics.c100_terminates_false` |
| C101 | ~ | string_join joins exactly the true strings, in order | the string-join aggregator with separators, arguments and worlds | joining is a function of the sublist of true facts; the multi-world theorem of C31 gives the one true result — proved for exact tags in every world, with and without arguments, and soundness for all sound tags. Refuted for Boolean tags: their negation is not used by the code, so a false fact is joined and no correct result is left. | `StrJoin.c101_join`, `StrJoin.c101_join_sound`, `StrJoin.c101_discrete`, `StrJoin.c101_all`, `StrJoin.c101_choices`, `StrJoin.c101_one`, `StrJoin.c101_choices_sound`, `StrJoin.c101_no_negation_partial`, `StrJoin.c101_boolean_false` |
| C102 | ~ | Weighted sums and averages | the weighted sum and average aggregator | as C101; the expectation by induction over the facts, exchanging the sum over subsets — proved: the one true result of every world for sums, and for averages where the weights of the true facts do not add up to 0; bounds; all facts with `!`; the expected sum with `!`. Refuted: an average over no true fact is not a number; without `!` every weight counts twice in the mean. | `WAgg.c102_sum`, `WAgg.c102_avg_partial`, `WAgg.c102_avg_false`, `WAgg.c102_discrete`, `WAgg.c102_bounds`, `WAgg.c102_expected`, `WAgg.c102_mean_false`, `WAgg.c102_example` |
| C103 | ~ | Normalization and disjunctions | normalize for probabilities and for proofs, disjunct with its loop over exclusions | invariant of the registered facts and exclusions over histories; each new proof contains the new fact, so a product of two of one exclusion has no proof left — proved: probabilities that add up to 1 in proportion to the weights, mutual exclusion after every history, facts and order kept, groups of disjunct. Refuted: facts all of weight 0, a normalized fact forgets its derivation, and all other provenances (among them all differentiable ones) ignore normalize. | `WAgg.c103_float`, `WAgg.c103_softmax`, `WAgg.c103_zero_false`, `WAgg.c103_default_false`, `WAgg.c103_proofs`, `WAgg.c103_forgets_false`, `WAgg.c103_disjunct`, `WAgg.c103_disjunct_args`, `WAgg.c103_forgets_example` |
| C104 | ~ | Samplers and the names of aggregates | the samplers as relations of their possible outcomes; the registry of aggregates and the names | counting draws; the finite registry by evaluation, all names by an invariant of the lookup — proved: distinct facts of the batch, all of at most k, at most k otherwise, positive weights, every outcome possible; the registry. Refuted: fewer than k facts are possible; `uniform` is the categorical sampler, `categorical` is unknown. | `WAgg.c104_uniform`, `WAgg.c104_uniform_all`, `WAgg.c104_fewer_false`, `WAgg.c104_categorical`, `WAgg.c104_registry`, `WAgg.c104_registry_only`, `WAgg.c104_uniform_false` |
| C105 | ~ | A query returns exactly its answers | the rule made for a query, the text of atoms, the outputs of a program | an assignment gives the fresh variables the components of the tuple; texts of simple arguments have distinct first characters and no commas — proved: the rule of a query and its compiled form derive exactly the answers for all arguments; the relation holds the answers of all queries of the same text; with uncomposed arguments texts determine queries; outputs. Refuted: strings are printed without escapes, so two different queries can share a relation. Missing: uniqueness of texts of composed arguments. | `Front.c105_query`, `Front.c105_compiled`, `Front.c105_relation`, `Front.c105_names`, `Front.c105_answers_partial`, `Front.c105_outputs`, `Front.c105_mixed_false` |
| C106 | ~ | Literals denote what is written | regular expressions of literals, the chain of replacements, the check of characters, integer parsing | induction over the tokens of a literal; an invariant of the chain: no backslash before t, r, n, 0 is left or made — proved: exactly which literals are read as usual and which strings, symbols, characters and numbers can be written. Refuted: an escaped backslash before t, r, n, 0; strings such as C:\\new, characters outside ASCII and numbers beyond i64 cannot be written. | `Literal.c106_string_partial`, `Literal.c106_string_false`, `Literal.c106_writable`, `Literal.c106_no_backslash`, `Literal.c106_unwritable_false`, `Literal.c106_symbol`, `Literal.c106_unique`, `Literal.c106_char_partial`, `Literal.c106_char_false`, `Literal.c106_int`, `Literal.c106_int_range` |
| C107 | ~ | Imports are compiled once and in order | compilation of a source with its imports, the set of imported files | the number of files not yet imported decreases; induction over the unfolding of the imports — proved: termination, exactly which sources compile and to which items, order, cycles, histories. Refuted: two files that import the same file are refused as if they were a cycle, and a file given twice as a source is compiled twice. Not modelled: how paths are resolved, parsing; the analyses are an arbitrary condition. | `Import.c107_terminates`, `Import.c107_exact`, `Import.c107_items`, `Import.c107_cycle`, `Import.c107_history`, `Import.c107_diamond_false`, `Import.c107_twice_false` |
| C108 | ~ | Attributes are applied where they are written | attributes, the transformations that move them, the five analyses of attributes | induction over the list of steps of an analysis: without errors the table is exactly what the steps say — proved: for every accepted program exactly which attributes count, and that they agree. Refuted: demands of facts, sets and conjunctive heads and of several relations declared with bound/free in one declaration are lost; only the first relation of a disjunctive head is checked, and any attribute on it can be refused; @hidden and @scheduler at aggregate rules and @goal at facts are ignored. | `Attr.c108_demand_partial`, `Attr.c108_demand_sound`, `Attr.c108_disjunctive_partial`, `Attr.c108_scheduler_partial`, `Attr.c108_storage`, `Attr.c108_values`, `Attr.c108_arguments`, `Attr.c108_goal_partial`, `Attr.c108_hidden_partial`, `Attr.c108_demand_false`, `Attr.c108_disjunctive_false`, `Attr.c108_ignored_false` |
| C109 | ~ | Files named by attributes are used as written | paths and their extensions (Unix), the options of `@file`, the two analyses of files, the outputs of queries | the analyses as functions; the last declaration that says something by induction over the declarations — proved: which paths count as csv files, exactly which attributes are accepted and what they mean, which relations are read from which files and which results go where. Refuted: errors at queries are never reported (the results are printed instead), @file at rules and facts is ignored, has_header = false is overridden by keys or fields. | `Attr.c109_extension`, `Attr.c109_options`, `Attr.c109_output_options`, `Attr.c109_ascii_message`, `Attr.c109_accepts`, `Attr.c109_inputs`, `Attr.c109_outputs`, `Attr.c109_query_errors_false`, `Attr.c109_silent_false`, `Attr.c109_elsewhere_false`, `Attr.c109_header_false` |
| C110 | ~ | Compiled programs aggregate as the interpreter does | the aggregations of the static runtime on typed tuples, the table of the generator and the settings of the interpreter | refinement: turning typed tuples into tuples of the interpreter keeps and reflects the order of keys, and commutes with each loop — proved: which uses can be compiled, that they call the aggregator of the interpreter with the same settings exactly if there is no mark ! or the aggregate is count, exists or top, that the three groupings give what those of the interpreter give and panic only where they do, and that top chooses the same facts. Refuted: the mark ! of sum, prod, min, max, argmin and argmax is ignored; most aggregates make the generator panic. | `SAgg.c110_supported`, `SAgg.c110_settings`, `SAgg.c110_single`, `SAgg.c110_implicit`, `SAgg.c110_join`, `SAgg.c110_no_panic`, `SAgg.c110_top`, `SAgg.c110_keys`, `SAgg.c110_mark_false`, `SAgg.c110_unsupported_false` |
| C111 | ~ | Compiled programs compute expressions as the interpreter does | the meaning of the generated Rust expressions, with the two treatments of overflow, and the casts of the interpreter | induction over expressions; wrapping and rounding compared with arithmetic modulo a power of two — proved: if the interpreter gives a value, sums and differences are in range, casts are between numbers and only what can be compiled is used, then the compiled expression gives the same value with and without overflow checks; sums and differences agree exactly if in range; division agrees always. Refuted: sums out of range, divisions that give NaN, operands that need not be evaluated, casts of digits and of most integer types. | `SExpr.c111_same`, `SExpr.c111_sums`, `SExpr.c111_division`, `SExpr.c111_rejected`, `SExpr.c111_digits_false`, `SExpr.c111_overflow_false`, `SExpr.c111_nan_false`, `SExpr.c111_short_circuit_false`, `SExpr.c111_casts_false` |
| C112 | ~ | A text is read in one way, by the usual rules | the productions of expressions and formulas as a derivation relation on tokens, and the text shown for expressions | a deterministic left-to-right reader that follows every derivation; invariants of its loops on chains of operators — proved for all token sequences: expressions and formulas are read in at most one way; chains of operators are read exactly as grouped by strength, and refused exactly if they compare twice between logical operators; conditionals reach as far as possible; every expression can be written; shown expressions are read back if no conditional is an operand. Refuted: && and // bind alike; parentheses around units, two prefix operators or casts in a row and commas mixed with other connectives are refused; conditionals are shown without parentheses. Missing: declarations, atomic formulas (single tokens in the part about formulas). | `Syn.c112_unambiguous`, `Syn.c112_unambiguous_formula`, `Syn.c112_written`, `Syn.c112_written_formula`, `Syn.c112_precedence`, `Syn.c112_comparisons`, `Syn.c112_conditional`, `Syn.c112_trailing_comma`, `Syn.c112_adjacent`, `Syn.c112_and_or_false`, `Syn.c112_parentheses_false`, `Syn.c112_unary_false`, `Syn.c112_shown_partial`, `Syn.c112_shown_false`, `Syn.c112_connectives`, `Syn.c112_comma`, `Syn.c112_parentheses`, `Syn.c112_formulas_false` |
| C113 | ~ | The text of a program is split into the tokens that were written | the regular expressions and literals of the grammar, matched by derivatives; the generated lexer, which takes the longest match and the last entry of the table | derivatives match exactly the language; shapes of the words of each expression; a token followed by a blank or bracket cannot be extended, except into a specialized name — proved for all texts: the lexer cuts the text into the longest pieces, in one way; what the tokens of each kind and the comments look like; a specialized name is read as its name and arguments; any layout of tokens in which nowhere `name < name, name ... >` stands is read back; blanks, line comments and block comments change nothing; every expression can be written as a text. Refuted: two comparisons `a < b, c > d` are read as a specialized name; `x-1` is a name and a number; tabs are refused. Missing: nothing else; the layout theorems hold under the stated proviso only. | `Lexer.c113_longest`, `Lexer.c113_unique`, `Lexer.c113_kind`, `Lexer.c113_tokens`, `Lexer.c113_skips`, `Lexer.c113_specialized`, `Lexer.c113_layout_partial`, `Lexer.c113_spaced_partial`, `Lexer.c113_layout_false`, `Lexer.c113_blanks`, `Lexer.c113_line_comment`, `Lexer.c113_block_comment`, `Lexer.c113_minus_false`, `Lexer.c113_tab_false`, `Lexer.c113_expression` |
| C114 | ~ | The location in an error message is the place in the program | texts as lists of characters with their lengths in bytes; the table of line offsets, the search in it, and the report with its marks, panics of slices and subtractions as errors | texts are complete lines followed by a last line; induction on the lines — proved for all texts and places: row and column, the line shown, the order of locations, that every report can be made, locations in Rust macros; that exactly the reported part is marked if the characters before and in it take one byte. that this condition is necessary; the lines and marks of parts of several lines; lines of the prompt; syntax errors in files. Refuted: marks after characters of several bytes (such as the quantifiers), all reports of several lines, syntax errors in strings, at the prompt and in macros. Missing: the parser that gives offsets. | `Loc.c114_position`, `Loc.c114_line`, `Loc.c114_rows`, `Loc.c114_order`, `Loc.c114_report`, `Loc.c114_marks_partial`, `Loc.c114_marks_iff`, `Loc.c114_marks_false`, `Loc.c114_span_partial`, `Loc.c114_span_false`, `Loc.c114_lines_false`, `Loc.c114_macro`, `Loc.c114_prompt_partial`, `Loc.c114_syntax_partial`, `Loc.c114_syntax_false` |
| C115 | ~ | A tensor given to a relation means the facts of its input mapping | Python values as trees; mappings as a shape and the list of elements; tensors as functions of indices; the sets of included and excluded indices; the counter of choices; torch.topk and Categorical as parameters with what they promise | indices correspond to numbers below the product of the shape; the loop over nested lists keeps the list of values at all indices — proved for all mappings, tensors and settings: places and numbers correspond, what lists and dictionaries mean and which lists are accepted, which facts a tensor means, the best facts, samples, and the choices, also in batches. torch.topk and sampling are any functions that keep their promise. Refuted: strings among tuples of their length, the bound zero, samples along a dimension of three or more, choices of different relations of a forward function. Missing: nothing else; the hypotheses of the partial theorems exclude exactly these, except that three dimensions with samples along the first, which work, are excluded too | `InputMap.c115_indices`, `InputMap.c115_list_partial`, `InputMap.c115_string_false`, `InputMap.c115_accepts`, `InputMap.c115_dict`, `InputMap.c115_facts`, `InputMap.c115_top_partial`, `InputMap.c115_top_zero_false`, `InputMap.c115_top_dim_partial`, `InputMap.c115_sample_partial`, `InputMap.c115_sample_dim_partial`, `InputMap.c115_sample_dim_false`, `InputMap.c115_batch`, `InputMap.c115_forward_false` |
| C116 | ~ | Facts given as a list keep their probabilities and disjunctions | tags as Python values; the two loops that replace tags; the stable sort and the renumbering of disjunctions; what the bindings read of a tag | invariants of the loops over disjunctions and facts; insertion sort is a sorted permutation — proved for all facts, bounds and disjunctions of which no two have a fact in common. Refuted: a fact in two disjunctions stays in the last one only; with the provenance for debugging, facts in disjunctions are not accepted. Missing: provenances that take no tags, negative numbers of facts | `ListFacts.c116_disjunctions_partial`, `ListFacts.c116_overlap_false`, `ListFacts.c116_none`, `ListFacts.c116_retain_partial`, `ListFacts.c116_debug_false` |
| C117 | ~ | Forward functions return the right probabilities and pass back the right gradients | dictionaries in the order of insertion; the choice of output relations and mappings; the tables of probabilities; the matrix of derivatives, dense and sparse, over any commutative semiring | invariants of the dictionaries; the columns of the matrix by induction on the outputs — proved for all batches, mappings and collections when the relations asked for are in the order of the outputs; the chain rule for all derivatives, dense and sparse. Refuted: relations asked for in another order than their mappings, or other relations than those of the function, are returned under wrong names; sparse matrices without entries are exceptions. Missing: other output relations for each item, provenances without derivatives, debugging information, rounding | `ForwardOut.c117_outputs_partial`, `ForwardOut.c117_order_false`, `ForwardOut.c117_other_false`, `ForwardOut.c117_gradients_partial`, `ForwardOut.c117_sparse_false` |
| C118 | ~ | A restored or copied context is the context it was made from | the fields of a context, its history, the calls its bindings get; the facts built by add_facts; clone, pickling; which calls the bindings take is a parameter | a simulation between the calls and their replay, with all choices renumbered — proved for all sequences of calls without exceptions in which relations are made (non-)probabilistic and mapped by their declarations, before facts are added; copies with provenance and k. Refuted: settings, standard library and monitors are lost; an exception that was caught makes a context impossible to restore; facts of relations made non-probabilistic later are restored wrapped twice; mappings set later are lost; copies ignore k without provenance, cannot be restored with a provenance without k, and lose wmc_with_disjunctions. Missing: custom provenances, sampled facts, what the bindings do with the calls | `CtxState.c118_restore_partial`, `CtxState.c118_choice`, `CtxState.c118_proofs_facts`, `CtxState.c118_probabilistic_false`, `CtxState.c118_settings_false`, `CtxState.c118_failed_false`, `CtxState.c118_flags_false`, `CtxState.c118_mapping_false`, `CtxState.c118_clone_partial`, `CtxState.c118_clone_k_false`, `CtxState.c118_clone_default_false`, `CtxState.c118_clone_wmc_false`, `CtxState.c118_training` |
| C119 | ~ | Monitors only observe | the monitored version of the loop, of strata, contexts and of reading, with the events of the loop and of recovery, beside the models of the other version; entities of a turn are a parameter | equality of the two versions by induction over turns and strata; invariant of the events — proved for all programs, facts and settings when no relation has its own scheduler, no entities are created, every stratum has a visible or read relation or maintenance is incremental, and relations that are read are computed and not empty; the events of the loop for all strata. Refuted: schedulers of relations and new entities are ignored, strata without outputs panic, empty and given relations cannot be read, loaded monitors are not told of reached goals. Missing: events of loading and tagging facts | `c119_loop_partial`, `c119_events`, `c119_goal_false`, `c119_entities_false`, `Exec.c119_execution_partial`, `Exec.c119_schedulers_ignored`, `Exec.c119_read_partial`, `Exec.c119_read_false`, `Exec.c119_interpret_partial`, `Exec.c119_interpret_false`, `Exec.c119_scheduler_false`, `Exec.c119_outputs_false` |
| C120 | ~ | Proofs that are dumped can be read | the state of the monitor, its methods and the files it writes; sessions that tag facts and then read relations | induction over the loaded relations, reverse induction over those that are read — proved for all sequences of loaded and read relations: proofs are written for relations without given probabilistic facts and for the last one read, given facts for relations that are not read. Refuted: given facts and proofs of a relation share a file; files of relations that are empty now are kept; no directory is a panic. Missing: the JSON text; monitors that see several runs | `Dump.c120_proofs_partial`, `Dump.c120_given_partial`, `Dump.c120_proofs_false`, `Dump.c120_variables_false`, `Dump.c120_stale_false`, `Dump.c120_directory_false` |
| C121 | ~ | Declarations of types and constructors | the analysis of constructors, the transformation of data types into relations, declared types and relations, compilation in the order of `compile_source` | induction over declarations; an order of constructors is any permutation — proved for all lists of declarations and all states: what is accepted, what types and relations mean, that nothing else changes, that two parts are the same as the whole, what is reported. Refuted: that the order of declarations does not matter, that mistakes are reported once, that all are. Missing: relations that are used before they are declared (C88) and foreign predicates | `Declare.c121_accepts_partial`, `Declare.c121_types`, `Declare.c121_others`, `Declare.c121_together`, `Declare.c121_reports`, `Declare.c121_order_false`, `Declare.c121_twice_false`, `Declare.c121_all_false` |
| C122 | ~ | Warnings about relations nothing computes, and wildcards | the analysis of used and computed relations over a history of compilations with imports and registrations, the transformation of queries of atoms, the check of wildcards | a source is the list of its parts, imports first; induction over parts and events; the map of uses keeps the last use; structural induction over expressions — proved for all histories and imports: which relations are warned about, that each is named once, that rejected sources leave no trace, that computed relations are never warned about; which wildcards are rejected. Refuted: that warnings are about the source that is compiled, that relations computed by the importing file are not warned about, that rejected sources print nothing, that the place is in the source that uses the relation, that wildcards are rejected wherever a value is needed. Missing: cycles of imports, relations used by what other transformations add | `Warn.c122_warnings`, `Warn.c122_exact`, `Warn.c122_rejected`, `Warn.c122_quiet`, `Warn.c122_place_partial`, `Warn.c122_again_false`, `Warn.c122_import_false`, `Warn.c122_rejected_false`, `Warn.c122_place_false`, `Front.c122_wildcards_partial`, `Front.c122_wildcards_false`, `Plan.c122_wildcards_panic_false`, `Plan.c122_wildcards_ignored_false` |
| C123 | ~ | A program in a Rust macro is the program that was written | tokens and groups with their lines and columns, the list made from them, the loop that makes lines of text | induction over the tokens; the length of the current line is the end of the last token or one more; lines only grow — proved for all tokens and groups: no panic, all tokens in order with only spaces added; for tokens of one line with characters of one byte: each on its line and at most one column too far, exact if no closing delimiter is behind a space or first on its line. Refuted: that tokens written apart stay apart, behind a closing delimiter with a space before it and behind characters of several bytes. Missing: literals over several lines | `Macro.c123_nothing_lost`, `Macro.c123_places`, `Macro.c123_exact_partial`, `Macro.c123_delimiter_false`, `Macro.c123_bytes_false` |
| C124 | ~ | A forall is over an implication or refused | the check of aggregations, its place before the transformations of bodies (C36), the lookup of names of aggregates after them | a relation of being written inside a formula; the visitors keep whether every forall is right, and leave a forall exactly if one was not — proved for all bodies: the message is given exactly for the aggregations v := forall(b) where b is not an implication, at any depth; in accepted bodies every forall, also the quantifiers, is over an implication and none is left; bodies with only such are not refused for forall; rules of one aggregation fare as the aggregation they stand for. Refuted: quantifiers over something else get another message; _ := forall(a implies b) and every rule rel r = forall(...) are refused as an unknown aggregate | `Front.c124_check`, `Front.c124_accepted`, `Front.c124_right`, `Front.c124_rule`, `Front.c124_message_false`, `Front.c124_ignored_false`, `Front.c124_rule_false` |
| C125 | ~ | Constructors in arguments match entities | arguments with patterns, the new variables and atoms, heads, what is made of negated atoms | induction over the patterns in both directions; numbers of new variables lie in disjoint intervals — proved for all atoms of bodies, single heads and facts, all nestings: the conjunction that replaces the atom can be made true exactly if there are values that match. Refuted: patterns in one of several heads and in negated atoms make the compiler panic | `Destr.c125_body`, `Destr.c125_head`, `Destr.c125_fact`, `Destr.c125_heads_false`, `Destr.c125_negated_false` |

## 4. Where the code disagrees with what a user relies on

Each item is a theorem with a concrete witness (named), unless it says "by reading".

Runtime
1. `gallop_index` with a start position > 0 tests `slice[0]` and can skip its start index (`c05_gallop_index_false`). Consequences: tuples stored
   twice (`c51_unique_tags_false`), stable batches that do not grow geometrically (`c45_geometric_false`), a program with 22 derivable tuples that
   never terminates (`c17_terminates_false`).
2. Beam size 0 schedules nothing and stops (`c09_beam_zero_stuck`). The depth-first scheduler panics when it completes after an iteration limit
   (`c18_dfs_limit_panics`).
3. Intersections of operands that repeat a tuple lose contributions (`c11_duplicates_lost`); a difference below a join is incomplete under semi-naive
   evaluation (`c15_join_over_difference_incomplete`, not emitted by the compiler).
4. `add-mult-prob` clamps, hence is not distributive and its gradient ignores the clamp (`c25_add_mult_prob_not_distributive`,
   `c44_clamp_gradient`). `sample-k` products call `or` (`c52_mult_unsound`). Top-k negation does not keep the most probable conjunctions
   (`c28_negate_not_best`). Counting with exclusions disjoins the constraints (`c54_refuted`). Real tropical proofs discards every fact derived
   without a variable (`c62_tropical_proofs_refuted`).
5. argmin/argmax lose ties except at the smallest value (`Agg.c39_ties_lost`); the multi-world average of integers divides by zero
   (`Agg.c56_avg_panics`).
6. Durations: a negative number with decimals has the wrong value (`Dur.c43_negative_decimal`); at the end of the range the parser panics
   (`Dur.c43_overflow_panics`).

Front end
7. Inverted assignments: `z = x - y` is inverted wrongly for `y` (`Front.c34_sub_false`), saturation and strings are not invertible
   (`Front.c34_saturation`, `Front.c34_strings`).
8. Negating a constraint panics (`Front.c36_constraint_panics`); two nested patterns on one variable clash (`Front.c66_two_patterns`); an inclusive
   range ending at the largest integer (`Front.c68_inclusive_max`); conjunctive heads over bodies with sugar panic (`Front.c69_sugar_panics`);
   wildcards nested in arguments of negated atoms (`Front.c67_nested_wildcard`).

Rule optimisations
9. Constant folding loses entities, panics on symbols, and disagrees on NaN (`Back.c30_*`); constant propagation loses a constraint
   (`Back.c31_constraint_lost`); equality propagation breaks chains (`Back.c32_chain_broken`); fused projections fail on nested accesses and hide
   undefined columns (`c33_*`).

Planning and translation
10. Assignments to variables that get a value elsewhere are not checked (`Plan.c71_bound_assign_refuted`); of two assignments only the last is used
    (`Plan.c71_two_assigns_refuted`); unused assignments are not computed (`Plan.c71_unused_assign_refuted`).
11. Constraints on variables for new entities are not checked (`Plan.c71_new_constraint_refuted`); chained new entities panic
    (`Plan.c71_chained_new_refuted`).
12. Negated foreign predicates are looked up among the relations (`Plan.c71_negated_foreign_refuted`); foreign predicates applied in one round do
    not see each other's variables, so that constraints are dropped (`Plan.c71_stale_variables_refuted`); a rule all of whose foreign predicates
    wait for an assignment panics (`Plan.c71_foreign_assign_refuted`).
13. Two operands with the same variables neither of which is an atom are intersected after projection to what is asked for
    (`Plan.c72_blind_intersect_refuted`).
14. A constant in an atom with a repeated variable read from a file is compared with the wrong column (`Plan.c72_file_repeated_refuted`); a repeated
    variable goes unchecked if constraints mention it twice (`Plan.c72_repeated_variable_refuted`).
15. Other variables of a group-by formula are not joined (`Plan.c72_other_group_by_refuted`).
16. A disjunctive head with a repeated variable reads columns that do not exist (`Plan.c73_disjunctive_repeated_refuted`).
17. The relation for a negated atom with a repeated variable and a constant reads another such relation and is then placed in no stratum, so that
    the program panics when run (`Plan.c75_unplaced_refuted`).

Contexts
18. A context with the default options takes visible input relations out of its database when it is run: the second run has lost the facts
    (`Exec.c77_refuted_default`). A run that fails leaves the context without program and results; a program with more facts for a relation is
    refused after one run of the smaller program and accepted after two (`Exec.c77_refuted_failed`). `execute` and the interpreter keep old results
    in spite of new facts, or panic (`Exec.c77_refuted_execute`). The facts of a program are added again at each run, which changes tags
    that count (`Exec.c78_refuted`). Facts that are refused by the database nevertheless drop the result (`Exec.c79_refuted`).
19. By reading: the comparison of programs for incremental maintenance (`persistent_relations`) is called on the empty program that was put in
    place of the old one, so that nothing ever is kept; runs with a monitor panic on strata without outputs, ignore the schedulers of relations and
    do not add dynamic entities; relations with the storage `indexed_vec` to which facts are added through the interface are stored sorted, and
    panic when joined.

20. A tuple held twice after a galloping scan has missed it loses one of its tags when it is derived again with a tag that the other one already
    covers: one occurrence marks the new tuple as redundant, the other is moved into it, and both are dropped (`c81_false`).
21. In a rule such as `q(x) :- r(x), not p(x, _)` only the tag of the first tuple of `p` with a given `x` is negated: the anti-join expects each key once, but
    the compiler gives it a projection of `p` to a prefix of its columns, which is sorted but has duplicates. `q(1)` comes out true although some `p(1, y)`
    is, and with two facts of probability one half has probability one half instead of one quarter (`Exec.c82_false`).

22. A foreign predicate that is given a wildcard where it needs a value passes the boundness analysis (`Front.c84_foreign_wildcard_refuted`) and is then
    silently left out of the rule (`Plan.c71_foreign_input_refuted`). The analysis also ignores variables that occur only in negated atoms
    (`Front.c84_negated_refuted`); the compiler treats them as wildcards.

By reading
23. On-demand relations (`@demand`) change results (C85). A negated on-demand atom that is looked up before other on-demand atoms is put into the rules
    for the demands of the others as a positive atom, so these demands are not made and facts are lost (`Plan.c85_negated_refuted`; the `Arc` of
    `generate_sips` carries atoms without their polarity). If the bound arguments of an on-demand atom cannot be computed, `generate_sips` fails and no
    demand rules are made, without an error: the relation is silently empty (`Plan.c85_dropped_refuted`). Negated atoms are kept in
    demand rules where their variables are not known yet (`remove_ungrounded_literals` removes only assignments and constraints); as compiled such a rule
    derives nothing if the negated relation has any fact (`Plan.c85_unbound_negated_refuted`). A stratified program may be rewritten to one that
    is not stratified and is then rejected (`Plan.c85_stratification_refuted`).
24. Indices of tuple accessors are `i8`: column 128 and above panics or wraps; `next_states` enumerates a power set, so that planning is
    exponential in the number of atoms; `TupleAccessor::from` of a triple sets length 2; `bounded_args_from_pos_atoms_set` tests its first operand
    twice; `has_multiple_patterns` ignores differences of length.

25. Type inference. The last step, which picks the first possible type for each `+`, `-`, `*`, `/` and comparison, runs once per rule in program order:
    a later rule may narrow the type of a relation of which an earlier rule has already fixed a copy, so that a relation holds values of other types than
    its columns and an addition gets operands of two types, which panics (`Ty.c87_typed_false`). `-x` on unsigned integers, `x % y` on floating point numbers
    and casts such as `f32` to `i32` are accepted and panic at run time (`Ty.c87_supported_false`). The equality of type sets has no case for
    `UnsignedInteger`, so inference does not end for programs that pass a literal to a foreign function that takes one, and their order has no case for it and a
    base type, so such a function refuses a `u32` (`Ty.c86_inference_ends_false`, `Ty.c86_refused_disjoint_false`). A declared constant as an argument of an atom
    silently replaces the declared type of the column (`Ty.c88_declared_kept_false`); `type r(i64)` after `rel r = {(1, 2)}` is accepted and drops a column
    (`Ty.c88_fact_literals_false`); literals wrap silently (`Ty.c88_literal_wraps`).

26. Foreign functions. `$sign` of a floating point number is declared to have the type of its argument and returns an `i32` (`Foreign.c89_return_type_false`); of the
    unsigned zero it is one (`Foreign.c89_sign_false`). `$max()` is accepted and panics, as do `$substring` beyond the end or inside of a character and `$format` with
    more arguments than holes (`Foreign.c89_no_panic_false`). `$max` and `$min` with a NaN depend on the order of the arguments (`Foreign.c89_max_float_false`). Positions
    are bytes for some string functions and characters for others (`Foreign.c90_char_at_false`, `Foreign.c90_index_false`, `Foreign.c90_find_false`).
27. `soft_eq` computes `sech` where its comment says `sech^2`, so it is the square root of the normalised derivative it is said to be (`Soft.c91_derivative_false`), and
    panics for the other sigmoid functions (`Soft.c91_soft_eq_false`). By reading: with floating point numbers it is NaN for numbers 1420 apart.

28. Entities. The same term is a different entity as a string, by `new` and at each place of the program where it is written as a constant, unless hashes collide
    (`Ent.c92_ways_false`, `Ent.c92_places_false`); the type of a nested constructor is not checked in strings (`Ent.c92_string_types_false`), and symbols are refused
    there (`Ent.c92_symbol_false`). By reading: a malformed entity string given for a fact drops the fact without an error (`tuple.rs`, `internalize_value`); the
    facts of constant entities are emitted again by every later compilation; a constructor declared twice in different compilations is not reported.

29. Compilation. A file that two files import is refused with an error about a cycle (`Compile.c94_diamond_false`, `process_imports`); a file given twice to `import_file`
    is compiled twice (`Compile.c94_twice_false`); `jit_compile` after `compile` builds the program for all outputs, not for the ones asked for, because nothing has changed
    (`Compile.c94_outputs_false`); a program that is accepted when it is added but refused by the back end, such as one that is not stratified, makes every later compilation
    of the context fail (`Compile.c94_stuck`). By reading: `register_foreign_function` leaves the function in one registry if the second registration fails.

30. Constants. `const B: u8 = A` gives `B` the type of entities, whatever `A` is (`Consts.c93_alias_false`, `constant_decl.rs` 160-164); a constant that is declared after a rule
    is a variable in the rule (`Consts.c93_order_false`); `type K = A = -5 | B = "b"` is accepted and the numbers are ignored (`Consts.c93_given_false`); without overflow checks
    the member after `9223372036854775807` gets the least number (`Consts.c93_overflow_false`), with them the compiler panics.

31. Top-bottom-k clauses. `mult_formula_bottom_k` (`cnf_dnf_context.rs` 222-304) copies the corner case of `mult_formula_top_k`: with an operand without clauses it returns
    the false formula, but a conjunction without clauses is true. So a tag that is true in every world becomes false and is discarded when anything is added to it
    (`c95_true_false`, reached in `c95_history_true_false` without cutting anything off). Products do not keep the most probable clauses, because merged clauses that share
    literals are more probable than their position suggests (`c95_best_false`). `c95_history_false` and `c95_exclusive_false` show that with negation a tag bounds nothing
    once something was cut off, and that exclusive facts survive.

32. Tagged rules. The tag predicate calls `tagging_fn` whenever it is evaluated (`foreign_predicate/constraint.rs` 118-119), so that a tuple of a recursive rule gets
    a new independent event each time its tag changes: `c96_recursive_false` reports 3/8 for 1/4, and with the `proofs` provenance `1/2 :: p(x) :- p(x)` never
    terminates (`c96_diverges`). Its argument is bound as soon as the first atom is read, so the planner puts it over that atom (`c96_planned`), and the events are
    those of the tuples of this atom: the probability depends on the order of the joins (`c96_order_false`). `get_target_tag_type` accepts all numbers, `bool`, `char` and strings, but
    the cast to `f64` at run time has cases for six types only and panics for `f64` itself and `bool` (`c96_evaluate`, `c96_types_false`). Heads that are not a single atom panic (`c96_head`).

33. Tags of facts. `from_dynamic_input_tag` for the input tags of `topkproofs`, `samplekproofs` and others (`input_exclusive_prob.rs` 51-61) has no case for `Bool`, `Natural`, `FloatWithID`
    and `ExclusiveFloatWithID`; `None` means certain: `false::p(1)` holds with probability 1 (`c97_false_refuted`). The same for `0.0::p(1)` with Boolean provenance (`c97_zero_refuted`). A tag that is not
    a constant is dropped (`f2b.rs` 134-145): `rel (1.0 - 0.7)::p(1)` is certain (`c97_expression_refuted`). A tagged fact with computed arguments becomes a rule at a location without a number;
    its tag predicate is stored under this location, nodes get their numbers afterwards, and the predicate is not found when predicates are registered, so that the rule has an empty body
    (`c97_computed_refuted`). Cloning a context loses the tags of the debugging provenance and gradients between the two differentiable kinds (`c97_clone_refuted`). `DualTag` (`composition/dual.rs`) reads no tag of a program; it is not in the model.
34. Numbers of exclusions. Disjunctive facts are numbered from 0 by the compiler (`b2r.rs` 275-293), calls of `add_exclusive_probabilistic_facts` from 0 by the database (`database.rs` 317-339), choices of rules from 0 by
    the environment (`environment.rs` 177-179), and all are registered in one table: the first choices of two origins exclude each other (`c98_origins_refuted`, `c98_database_refuted`). The map from solutions to numbers belongs
    to the dataflow, which is built anew in every iteration, so that a solution found twice makes two choices (`c98_revisit_refuted`); `R.excl` of the model of execution (`Model/Exec.lean`) is a function of the solution and the alternative and does not show this.

35. Files. The registry of files is keyed by the path alone (`input_file_registry.rs` 39-57), although the content depends on delimiter and header: of two relations that read one file, the second gets the content of the first, and loses a row or is
    refused (`c99_registry_refuted`, `c99_registry_order_refuted`). `parse` panics for symbols (`value_type.rs` 229-278; `c99_symbol_refuted`). Files are written with `Display`, which quotes strings and characters (`c99_roundtrip_string_refuted`, `c99_roundtrip_char_refuted`),
    and without tags. With keys, a row gives several facts that all carry the tag of the row, registered as independent events (`c99_row_probability_refuted`; the code has a TODO about this).

36. Compiled programs. `StaticCollection::merge` skips the second of two equal first elements without adding its tag (`statics/collection.rs` 136-138; the interpreter's `sorted.rs` 242-245 adds it), so of two rules for one tuple only one counts
    (`c100_tags_false`, `c100_rule_order_false`, `c100_facts_false`). Facts are inserted without early discarding (`c100_discard_false`), failing expressions panic instead of skipping the tuple (`c100_failing_expression_false`), and the scan of C17 never stops here either (`c100_terminates_false`).
    Read but not modelled: `overwrite_one` is generated but does not exist in the static runtime, untagged vectors, exclusions, foreign predicates, function calls, `new`, symbols and tensors are not generated, and the field names
    of relations are not distinct for all names (`#foo` and `__pfoo`).

37. Aggregates of the standard library. `string_join` over Boolean tags joins false facts too (`c101_boolean_false`). `weighted_avg` of a world without true facts is 0/0 (`c102_avg_false`); `weighted_sum` without `!` counts
    each weight in the number and in the tag (`c102_mean_false`, `c102_example`). `normalize` divides by zero for weights 0 (`c103_zero_false`), replaces the tag by a fresh fact that does not depend on the old one
    (`c103_forgets_false`, `c103_forgets_example`), and does nothing for all provenances but four (`c103_default_false`). Samplers draw with replacement, so they can return fewer than `k` facts (`c104_fewer_false`).
    `CategoricalAggregate::name` returns `"uniform"` (`categorical.rs` 26-28) and is registered first, so `uniform` samples by weight and `categorical` does not exist (`c104_uniform_false`).

38. Queries and literals. The relation of a query is named by the text of the query, with strings printed without escapes, so that `r("a", "b\", \"c")` and `r("a\", \"b", "c")` share one relation (`c105_mixed_false`).
    Escapes are replaced one kind after the other over the whole string (`grammar.lalrpop` 1002-1027): `"C:\\new"` contains a line break, and no literal denotes a string with a backslash before `t`, `r`, `n` or `0`
    (`c106_string_false`, `c106_unwritable_false`). A character literal must have one byte, so no character outside ASCII can be written, nor can `'` (`c106_char_false`); integer literals beyond `i64` panic the parser
    (`c106_int`), so the upper half of `u64` cannot be written (`c106_int_range`).

39. Imports. Every file that is imported a second time is reported as a cycle (`compile.rs` 335-357), so two files of a program cannot import the same third file (`c107_diamond_false`); the check is not made for a source
    that is given directly, so that compiling a file twice duplicates its items (`c107_twice_false`).

40. Attributes. `@demand` at facts, constant sets and conjunctive heads is ignored; `type p(bound x: i32), q(i32)` loses the declaration of `p` altogether, because the items that `desugar_arg_type_anno.rs` makes are never
    added to the program (`c108_demand_false`). `demand_attr.rs` 126-132 returns after the first relation of a disjunctive head, and reports a demand for any attribute (`c108_disjunctive_false`). `@hidden` and
    `@scheduler` at aggregate rules and `@goal` at facts or conjunctive heads are ignored (`c108_ignored_false`).

41. **Counts of groups that do not exist** (C82, `c82_implicit_count_false`). `implicit_group.rs` forms one group for every key among the stored tuples, whatever
    their tags are. If in some world no tuple of the group is true, `count` still reports 0 for its key, with a tag that is true in that world, although there the
    group does not exist: with boolean tags a key all of whose facts are false is reported with count 0, while the same program without these facts reports
    nothing.

42. **Files of queries** (C109). `dump_errors` (`analysis.rs` 103-119) passes on the errors of all analyses but `output_files_analysis`: a `@file` at a query whose path or delimiter is wrong is ignored and the results
    are printed (`c109_query_errors_false`, `c109_silent_false`). The message for an unknown extension lists `.txt`, which is refused. The message for a delimiter that is not ASCII is never given, because the length
    in bytes is checked first (`c109_ascii_message`). `@file` at rules, facts and sets is ignored (`c109_elsewhere_false`).
43. **A demanded variable hides the variable an aggregation binds** (C84). The boundness check passes the demanded arguments of the head into
    aggregations, where they bind variables by name (`boundness/context.rs` 163-199, 266-303). `q(x, n) = a(x), n := count(x: x != "b")` with a demand for
    the first component is accepted, although the counted `x` is another variable, which nothing binds; with another name, or without the demand, the
    rule is rejected (`c84_shadow_refuted`).

44. **Aggregates of compiled programs** (C110). `ram2rs.rs` 403-435 hands the mark `!` to `count` and `exists` only: `sum!`, `prod!`, `min!`, `max!`, `argmin!` and `argmax!` are compiled as `sum`, `prod` and so on, and
    give one result for each set of facts (`c110_mark_false`). `min` and `max` with arguments, and all aggregates but nine, make the generator panic with `unimplemented!` (`c110_unsupported_false`).

45. **Expressions of compiled programs** (C111). The interpreter rounds sums and differences to the ends of the type (`saturating_add`), the generated code uses `+` and `-`, which panic in a debug build and wrap around in a
    release build (`c111_overflow_false`, `c111_sums`). Facts for which a division gives NaN are dropped by the interpreter and kept by a compiled program (`c111_nan_false`). `&&` and `||` evaluate both operands in the
    interpreter only (`c111_short_circuit_false`). `'7' as i32` is 7 in the interpreter and 55 in a compiled program (`c111_digits_false`). Casts from integer types other than `i8`, `i32` and `usize` panic in the
    interpreter only (`c111_casts_false`). Unary `+`, sums of strings, casts from or to strings, calls, entities and symbols give code that is not accepted, or make the generator panic (`c111_rejected`). Read but not
    modelled: the tags `FloatWithID` and `ExclusiveFloatWithID` are written as `Float` and `ExclusiveFloat` with one argument too many (`ram2rs.rs` 579-580), which the Rust compiler refuses.

46. **Reading expressions and formulas** (C112). `&&`, `||` and `^` bind alike and group to the left: `a || b && c` is `(a || b) && c` (`c112_and_or_false`). Parentheses are only accepted around expressions with an
    operator and around formulas with a connective: `(x)`, `((x + 1))` and `(p(x))` are syntax errors (`c112_parentheses_false`, `c112_formulas_false`). `!!x`, `- -x`, `x as i64 as f32` and `-x as i64` are syntax
    errors (`c112_unary_false`). A literal includes its sign, so `x -1` and `x-1` are a name followed by a literal, a syntax error (`c112_adjacent`). Commas do not mix with `or`, `and` or `=>` (`c112_formulas_false`).
    Conditional expressions are shown without parentheses: `(if a then b else c) + d` is shown as `(if a then b else c + d)`, another expression (`c112_shown_false`). Read but not modelled: implications are shown with
    `->`, which is not accepted for reading, and showing a range in a rule does not end (`pretty.rs` 634-638, 756-760).

47. **Splitting a program into tokens** (C113). The expression for names of specialized predicates, `name < name, name ... >` with white space anywhere, is a single token and is longer than any of its parts, so the
    comparisons in `rel r(a) = p(a, b, c, d), a < b, c > d` are read as the name `a < b, c >` followed by `d`, a syntax error; also `a < b >= c` (`c113_layout_false`). Swapping the sides of one comparison avoids it. `x-1` is a
    name followed by the number `-1`, a syntax error, and `b?x:-1` contains the symbol `:-` (`c113_minus_false`). Tabs are not accepted between tokens, although they are inside names of specialized predicates
    (`c113_tab_false`).

48. **Marks in error messages** (C114). Columns are numbers of bytes, but the marks below a line are placed as if they were numbers of characters: after a quantifier `∃` or `∀`, or in a string after any character of several
    bytes, the marks stand too far to the right, and a part with such characters has too many marks (`c114_marks_false`). In reports of several lines the marks of a line are followed by the next line without a line end,
    and only the first and the last line are marked; if a program ends too early at a line end, two lines are shown and nothing is marked (`c114_lines_false`).

49. **Tensors as facts** (C115). In a forward function every relation numbers its exclusive choices from 0 (`forward.py` 509 gives no counter), so the first choices of two relations with disjunctive mappings are the same, and
    their facts exclude each other (`c115_forward_false`). `retain_k = 0` makes all facts instead of none (`c115_top_zero_false`). Sampling along a dimension of a tensor of three dimensions (other than the first) exchanges
    the other two dimensions: samples are those of other rows, possibly of probability zero, or there is an index error (`c115_sample_dim_false`). In a list of tuples, a string of the same length is accepted and used in place of a
    tuple (`c115_string_false`).

50. **Disjunctions of lists of facts** (C116). A fact in two disjunctions is put into the last one only, so that it can be true together with the facts of the other (`c116_overlap_false`). With the provenance
    `difftopkproofsdebug`, the tag of a fact in a disjunction is `((tag, id), disjunction)`, while the bindings take `(tag, id, disjunction)` only: every use of disjunctions fails (`c116_debug_false`). Lists take the numbers of
    their choices from the context and tensors from 0 on, so these collide too (C115).

51. **Names of outputs** (C117). Results are computed in the order of the relations asked for in a call, but named by the function's outputs or, if it has none, by the order of the mappings of the call: when these differ, results are
    returned under the names of other relations (`c117_order_false`, `c117_other_false`). With `sparse_jacobian`, a batch whose outputs have no derivatives builds a one-dimensional tensor of indices, which is an exception, while the
    dense matrix passes back zeros (`c117_sparse_false`).

52. **Pickled and copied contexts** (C118). A pickled context is restored by calling the recorded methods again on a new context of the bindings, which gets neither the standard library, the registry of tensors, the monitors, the limit
    of iterations nor early discarding (`c118_settings_false`). Methods are recorded before they are called, so a call that raised an exception is repeated, and fails, on restoring (`c118_failed_false`). The fields of the context are restored
    first, so facts of relations that became non-probabilistic later are wrapped twice (`c118_flags_false`), and recorded declarations overwrite later input mappings (`c118_mapping_false`). `clone` ignores `k` without a provenance
    (`c118_clone_k_false`), forgets `k` when only a provenance is given (`c118_clone_default_false`), and does not keep `wmc_with_disjunctions` (`c118_clone_wmc_false`).

53. **Monitors change results** (C119). Execution with monitors is a second copy of the code. It does not add the schedulers declared for relations (`c119_scheduler_false`, `c119_schedulers_ignored`); does not turn entities created by rules into
    facts (`c119_entities_false`); indexes the map of outputs, which is a panic for strata without outputs, without incremental maintenance (`c119_outputs_false`); does not mark empty relations as recovered and does not look at the extensional
    database, so that such relations "have not been computed" (`c119_read_false`). `DynamicMonitors` does not pass on that goals were derived (`c119_goal_false`).

54. **Dumped proofs are overwritten** (C120). The given facts and the proofs of a relation go to the same file, and the given facts of all relations are written again whenever a relation has been read: either the proofs of a relation
    are lost or what their variables stand for is (`c120_proofs_false`, `c120_variables_false`). A relation that has no facts keeps the file of an earlier run (`c120_stale_false`), and without the directory reading is a panic (`c120_directory_false`).
55. **`soft_eq` of tensors is not a probability** (C91). The Python standard library computes `cs + 1.0 / 2.0`, not `(cs + 1.0) / 2.0`, of the cosine: a vector is equal to itself with probability 3/2, and different with -1/2 (`c91_tensor_false`).

56. **Types must be declared before they are used, except in constructors** (C121). A synonym or relation that uses a type declared later is rejected, a constructor is not (`c121_order_false`); data types that use each other cannot be compiled in
    two parts. A constructor declared twice in one data type is reported twice (`c121_twice_false`), and hides all mistakes in types (`c121_all_false`).

57. **Syntax errors without a place** (C114). Syntax errors in sources without a name are reported without the line they are in: in strings, so in all programs given to the Python API, at the prompt and in Rust macros (`c114_syntax_false`); the
    message of the parser has byte offsets. And every report of several lines prints each line behind the marks of the line before (`c114_span_false`).

58. **Warnings about relations come too early, too often and for the wrong place; wildcards in calls are accepted** (C122). A relation used in an imported file and computed in the importing one is warned
    about (`c122_import_false`), also if the importing file is then rejected (`c122_rejected_false`); a warning is repeated with every later source (`c122_again_false`); for a query of an atom it shows the first
    line of the first source of the context (`c122_place_false`). A wildcard as argument of a call passes both the check of wildcards and the analysis of bound variables, in heads and in equations
    (`c122_wildcards_false`), although its value is needed: in a head the compiler panics (`c122_wildcards_panic_false`), an equation is ignored (`c122_wildcards_ignored_false`).

59. **In the macro `scallop!`, names that are written apart may become one** (C123). The number of spaces put before a closing delimiter ignores that its place is that of its end, and the length of a line is
    counted in bytes, columns in characters: `p( x )and q` is compiled as `p( x  )andq` (`c123_delimiter_false`) and `"éé" and q` as `"éé"andq` (`c123_bytes_false`).

60. **Some forms of `forall` cannot be compiled** (C124). `DesugarReduceRule` looks for the type of the aggregate `forall`, which the registry has not, so `rel r = forall(x: a(x) implies b(x))` stays without
    a result, is not replaced by `exists`, and is refused as an unknown aggregate, whatever its body (`c124_rule_false`); so is `_ := forall(...)` (`c124_ignored_false`). The check that the body is an
    implication is not made for the quantifier `forall(x: a(x))`, which is refused as an unknown aggregate too (`c124_message_false`).

61. **Constructors as arguments are not supported everywhere** (C125). In a negated atom they are left in place, and the compiler panics when it makes a literal of it (`c125_negated_false`); in one of several
    heads, joined by `and` or by `or`, the transformation itself panics (`c125_heads_false`).

## 5. Modelled and not modelled

Modelled: `runtime/dynamic` (collections, relations, dataflows, aggregation, iteration), `runtime/env/schedulers`, `runtime/utils/gallop`, the
provenances named in section 3 with `runtime/provenance/common`, `lib/sdd`, `common/{generic_tuple,tuple_access,expr,binary_op,unary_op,value}`,
`common/{entity,adt_variant_registry}`, `runtime/env/dynamic_entity_storage.rs`, `common/foreign_aggregates`, `common/foreign_functions` (but for dates, tensors, entities), the range, string and soft comparison predicates, `runtime/env/environment.rs` (`eval`), `utils/id_allocator`, `lib/parse_relative_duration`,
`compiler/front` (the lexer, locations and error reports, the grammar of expressions and formulas, desugarings, type inference, boundness analysis, the analyses of used relations and wildcards, normal form, flattening), `compiler/back` (rules, optimisation passes, the demand transformation,
stratification, query plans, variable tuples, permutations, translation to RAM), `compiler/ram` (deduplication, project cascade, dependencies),
`runtime/dynamic/incremental.rs` (execution), `runtime/database/{extensional,intentional}` and the storages, and of `integrate` the adding of facts,
running and reading, `runtime/database/io` (from records on), `common/{input_tag,input_file,symbol_registry}`, `runtime/statics` (collections, relations,
dataflows, aggregations, strata).

Not modelled: the grammar of declarations, type inference of aggregates, the rest of `integrate` and the other external interfaces (Python bindings,
`scallopy` but for input mappings, disjunctions, the numbering of choices, outputs and gradients of forward functions, pickling and copies of contexts, CLI), the splitting of files into records, foreign functions and predicates other than those named, what monitors print and which facts they are shown when these are loaded and tagged, parsing of entity strings, tensors, random sampling other than as an arbitrary choice, the text of generated
code (`ram2rs`) and its acceptance by the Rust compiler.

## 6. Model boundaries that matter

* `Dataflow` operators are modelled by the list of all elements they will return; laziness is not modelled, so a panic further down an operand that
  the code would not reach is reported by the model.
* RAM deduplication (C47) is about operators that are functions of the relation states; operators with hidden state (random sampling, fresh exclusion
  identifiers) are outside.
* C71–C74 treat the contents of relations as sets (tags are the subject of C10–C16) and take as given that the temporary and permuted relations
  asked for contain what they are meant to contain (`Solves`); C75 shows that they do when strata are run to their least fixpoints.
* Executions (C76–C78): the provenance context and the symbol registry do not change while a program is executed: the tag of a fact is a function of
  the tag it was given with. That evaluation ends is a hypothesis (`C17`).

## 7. Axioms of the theorems

Output of `#print axioms` for every theorem named in `MANIFEST.json`.

* no axioms: `Agg.c58_single`, `Foreign.c89_registered`, `Literal.c106_symbol`, `WAgg.c104_registry`, `c12_product`, `c50_componentwise`, `c50_semiring`, `c61_boolean_minus`
* `propext`: `Agg.c56_avg_count_overflow`, `Back.c30_entity_lost`, `Back.c30_nan`, `Back.c30_symbol_panic`, `Back.c31_constraint_lost`, `Compile.c94_deterministic`, `Compile.c94_twice_false`, `Consts.c93_alias_false`, `Consts.c93_given_false`, `Consts.c93_order_false`, `Consts.c93_overflow_false`, `CtxState.c118_clone_k_false`, `CtxState.c118_clone_wmc_false`, `CtxState.c118_flags_false`, `CtxState.c118_mapping_false`, `CtxState.c118_probabilistic_false`, `CtxState.c118_training`, `Ent.c92_add_string`, `Ent.c92_new`, `Ent.c92_places_false`, `Ent.c92_string_types_false`, `Ent.c92_symbol_false`, `Ent.c92_ways_false`, `Front.c122_wildcards_false`, `Front.c124_check`, `Front.c124_ignored_false`, `Front.c124_message_false`, `Front.c34_strings`, `Front.c36_constraint_panics`, `Front.c64_add_not_associative`, `Front.c64_compare`, `Front.c64_div_panics`, `Front.c64_float_div`, `Front.c64_mul`, `Front.c64_no_mixing`, `Front.c64_other`, `Front.c69_sugar_panics`, `Front.c84_foreign_wildcard_refuted`, `InputMap.c115_forward_false`, `ListFacts.c116_overlap_false`, `Plan.c48_repetitions`, `SAgg.c110_unsupported_false`, `SExpr.c111_casts_false`, `StrJoin.c101_boolean_false`, `Tagged.c96_evaluate`, `Tagged.c96_tag_types`, `Tagged.c96_types_false`, `Ty.c86_merge_exact`, `Ty.c86_refused_disjoint_false`, `Ty.c88_declared_kept_false`, `Ty.c88_fact_literals_false`, `Ty.c88_literal_wraps`, `WAgg.c104_registry_only`, `WAgg.c104_uniform_false`, `c25_natural`, `c25_order_irrelevant`, `c33_nested_access`, `c33_undefined_column`, `c50_discard`
* `Quot.sound`, `propext`: `Agg.c37_discrete`, `Agg.c37_sum_prod_bool`, `Agg.c38_discrete`, `Agg.c56_avg_partial`, `Agg.c59_enumerate`, `Attr.c108_arguments`, `Back.c30_panics`, `Back.c32_complete`, `Back.c32_partial`, `Back.c60_complete`, `Back.c60_terminates`, `Back.c60_true_false`, `Compile.c94_adds`, `Compile.c94_atomic`, `Compile.c94_clone`, `Compile.c94_clones`, `Compile.c94_decides`, `Compile.c94_fresh_partial`, `Compile.c94_imports_first`, `Compile.c94_items`, `Compile.c94_no_panic`, `Compile.c94_once`, `Compile.c94_order`, `Compile.c94_outputs_false`, `Compile.c94_stuck`, `Compile.c94_tree`, `Consts.c93_no_panic`, `Csv.c99_header`, `Csv.c99_rectangular`, `CtxState.c118_clone_default_false`, `CtxState.c118_clone_partial`, `CtxState.c118_failed_false`, `CtxState.c118_proofs_facts`, `CtxState.c118_restore_partial`, `CtxState.c118_settings_false`, `Declare.c121_reports`, `Destr.c125_body`, `Destr.c125_fact`, `Destr.c125_head`, `Destr.c125_heads_false`, `Destr.c125_negated_false`, `Dump.c120_directory_false`, `Dump.c120_given_partial`, `Dump.c120_proofs_false`, `Dump.c120_proofs_partial`, `Dump.c120_stale_false`, `Ent.c92_accepts_partial`, `Ent.c92_const`, `Ent.c92_drain`, `Ent.c92_store`, `Exec.c119_read_false`, `Exec.c119_read_partial`, `Exec.c82_aggregates_model`, `Exec.c82_model`, `Exec.c83_model_partial`, `Exec.topKProv_uniform`, `Front.c122_wildcards_partial`, `Front.c124_rule`, `Front.c124_rule_false`, `Front.c34_sub_second_operand`, `Front.c35`, `Front.c35_no_panic`, `Front.c36_negate_undefined`, `Front.c64_add_sub`, `Front.c64_closed`, `Front.c64_div_defined`, `Front.c66_partial`, `Front.c67_nested_wildcard`, `Front.c68_inclusive_max`, `Front.c68_partial`, `Front.c84_differences_cancel`, `Front.c84_strings_cancel`, `Front.c84_sums_cancel`, `Import.c107_diamond_false`, `Import.c107_twice_false`, `Input.c97_alternative_prob`, `Input.c97_clone_choice`, `Input.c97_clone_refuted`, `Input.c97_clone_same`, `Input.c97_computed_refuted`, `Input.c97_exclusion`, `Input.c97_expression_refuted`, `Input.c97_false_refuted`, `Input.c97_untagged_partial`, `Input.c97_written_partial`, `Input.c97_zero_refuted`, `Input.c98_alternatives`, `Input.c98_choice_partial`, `Input.c98_database`, `Input.c98_database_refuted`, `Input.c98_numbers`, `InputMap.c115_dict`, `InputMap.c115_sample_dim_false`, `ListFacts.c116_none`, `Literal.c106_char_partial`, `Literal.c106_string_partial`, `Loc.c114_line`, `Loc.c114_rows`, `Plan.c122_wildcards_ignored_false`, `Plan.c122_wildcards_panic_false`, `Plan.c71_bound_assign_refuted`, `Plan.c71_chained_new_refuted`, `Plan.c71_foreign_assign_refuted`, `Plan.c71_foreign_input_refuted`, `Plan.c71_new_constraint_refuted`, `Plan.c71_unused_assign_refuted`, `Plan.c72_file_repeated_refuted`, `Plan.c72_repeated_variable_refuted`, `Plan.c73_disjunctive_repeated_refuted`, `Plan.c74_unsorted_without_copy`, `Plan.c75_unplaced_refuted`, `Plan.c85_has_model`, `SAgg.c110_top`, `SExpr.c111_division`, `SExpr.c111_sums`, `StrJoin.c101_all`, `StrJoin.c101_discrete`, `Syn.c112_adjacent`, `Syn.c112_comma`, `Syn.c112_conditional`, `Syn.c112_connectives`, `Syn.c112_formulas_false`, `Syn.c112_parentheses`, `Syn.c112_parentheses_false`, `Syn.c112_shown_false`, `Syn.c112_shown_partial`, `Syn.c112_trailing_comma`, `Syn.c112_unambiguous`, `Syn.c112_unambiguous_formula`, `Syn.c112_unary_false`, `Syn.c112_written`, `Syn.c112_written_formula`, `Tagged.c96_head`, `Tagged.c96_planned`, `Tagged.c96_planned_expr`, `Tagged.c96_transformed`, `Ty.c86_inference_ends_false`, `Ty.c86_refused_disjoint_partial`, `WAgg.c104_fewer_false`, `WAgg.c104_uniform_all`, `c04_retain`, `c05_gallop_index_false`, `c09_beam_zero_stuck`, `c24_lattice`, `c24_semiring`, `c25_boolean`, `c29_valid`, `c33_compose`, `c33_normal`, `c33_partial`, `c42_increasing`, `c42_unique`, `c44_max_min`, `c45_geometric_false`, `c45_log_batches`, `c51_unique_tags_false`, `c52_add_sound_partial`, `c61_boolean`, `c61_natural`, `c61_natural_count`, `c61_tropical_proofs_number`, `c62_discard_diff`, `c62_discard_zero`, `c62_tropical_proofs_refuted`, `c63_noisy_or_gradient`, `c95_true_false`
* `Classical.choice`, `Quot.sound`, `propext`: `Agg.addMult_exactIn`, `Agg.c37_count`, `Agg.c37_count_sound`, `Agg.c37_no_panic`, `Agg.c37_sum_prod`, `Agg.c37_sum_prod_sound`, `Agg.c38_exists`, `Agg.c38_exists_sound`, `Agg.c39_arg_partial`, `Agg.c39_arg_sound`, `Agg.c39_bool`, `Agg.c39_discrete`, `Agg.c39_discrete_plain`, `Agg.c39_min_max`, `Agg.c39_min_max_sound`, `Agg.c39_no_negation`, `Agg.c39_ties_lost`, `Agg.c40_aggregate`, `Agg.c40_top_k`, `Agg.c41_range`, `Agg.c56_avg_panics`, `Agg.c57_count_min_max`, `Agg.c57_counts`, `Agg.c58_implicit`, `Agg.c58_join`, `Agg.c59_rank`, `Agg.c59_sort`, `Agg.minMax_exactIn`, `Agg.topK_soundIn`, `Attr.c108_demand_false`, `Attr.c108_demand_partial`, `Attr.c108_demand_sound`, `Attr.c108_disjunctive_false`, `Attr.c108_disjunctive_partial`, `Attr.c108_goal_partial`, `Attr.c108_hidden_partial`, `Attr.c108_ignored_false`, `Attr.c108_scheduler_partial`, `Attr.c108_storage`, `Attr.c108_values`, `Attr.c109_accepts`, `Attr.c109_ascii_message`, `Attr.c109_elsewhere_false`, `Attr.c109_extension`, `Attr.c109_header_false`, `Attr.c109_inputs`, `Attr.c109_options`, `Attr.c109_output_options`, `Attr.c109_outputs`, `Attr.c109_query_errors_false`, `Attr.c109_silent_false`, `Back.c30_partial`, `Back.c31_complete`, `Back.c31_partial`, `Back.c32_chain_broken`, `Back.c60_empty_rule`, `Back.c60_partial`, `Compile.c94_cycle`, `Compile.c94_diamond_false`, `Consts.c93_accepts`, `Consts.c93_distinct`, `Consts.c93_enum`, `Consts.c93_ground`, `Consts.c93_left`, `Consts.c93_replaced`, `Consts.c93_type_partial`, `Csv.c99_fields`, `Csv.c99_keys`, `Csv.c99_keys_accepts`, `Csv.c99_load`, `Csv.c99_once`, `Csv.c99_probability_partial`, `Csv.c99_raw`, `Csv.c99_registry_order_refuted`, `Csv.c99_registry_partial`, `Csv.c99_registry_refuted`, `Csv.c99_roundtrip_char_refuted`, `Csv.c99_roundtrip_partial`, `Csv.c99_roundtrip_string_refuted`, `Csv.c99_row_probability_refuted`, `Csv.c99_symbol_refuted`, `Csv.c99_symbols`, `Csv.c99_symbols_stable`, `Csv.c99_value`, `CtxState.c118_choice`, `Declare.c121_accepts_partial`, `Declare.c121_all_false`, `Declare.c121_order_false`, `Declare.c121_others`, `Declare.c121_together`, `Declare.c121_twice_false`, `Declare.c121_types`, `Dump.c120_variables_false`, `Dur.c43_minutes_months`, `Dur.c43_names`, `Dur.c43_negative_decimal`, `Dur.c43_number`, `Dur.c43_overflow_panics`, `Dur.c43_partial`, `Dur.c43_units`, `Ent.c92_distinct_false`, `Ent.c92_one_term_partial`, `Ent.c92_string`, `Ent.c92_string_typed_partial`, `Ent.c92_strings_partial`, `Exec.c119_execution_partial`, `Exec.c119_interpret_false`, `Exec.c119_interpret_partial`, `Exec.c119_outputs_false`, `Exec.c119_scheduler_false`, `Exec.c119_schedulers_ignored`, `Exec.c76_execution`, `Exec.c77_history_partial`, `Exec.c77_refuted_default`, `Exec.c77_refuted_execute`, `Exec.c77_refuted_failed`, `Exec.c78_refuted`, `Exec.c78_rerun_partial`, `Exec.c79_atomic_partial`, `Exec.c79_refuted`, `Exec.c80_program_partial`, `Exec.c82_aggregates_partial`, `Exec.c82_aggregators_exact`, `Exec.c82_boolean`, `Exec.c82_boolean_aggregates_partial`, `Exec.c82_boolean_aggregators`, `Exec.c82_false`, `Exec.c82_implicit_count_false`, `Exec.c82_min_max`, `Exec.c82_probability_aggregates_partial`, `Exec.c82_probability_bound`, `Exec.c82_probability_partial`, `Exec.c82_sound`, `Exec.c82_top_k_aggregates_partial`, `Exec.c82_top_k_aggregators`, `Exec.c82_top_k_partial`, `Exec.c82_worlds_partial`, `Exec.c83_boolean_partial`, `Exec.c83_compiled_partial`, `Exec.c83_min_max_partial`, `Exec.c83_probability_bound_partial`, `Exec.c83_probability_partial`, `Exec.c83_sound_partial`, `Exec.c83_top_k_partial`, `Exec.c83_worlds_partial`, `Exec.pathRules_compiled`, `Exec.pathRules_positive`, `Foreign.c89_abs`, `Foreign.c89_calls_typed_partial`, `Foreign.c89_max`, `Foreign.c89_max_float_false`, `Foreign.c89_max_float_partial`, `Foreign.c89_min`, `Foreign.c89_no_panic_false`, `Foreign.c89_no_panic_partial`, `Foreign.c89_pow`, `Foreign.c89_return_type_false`, `Foreign.c89_return_type_partial`, `Foreign.c89_round`, `Foreign.c89_sign_false`, `Foreign.c89_sign_float`, `Foreign.c89_sign_partial`, `Foreign.c90_case`, `Foreign.c90_char_at_false`, `Foreign.c90_char_at_partial`, `Foreign.c90_chars`, `Foreign.c90_concat`, `Foreign.c90_find_all`, `Foreign.c90_find_false`, `Foreign.c90_find_partial`, `Foreign.c90_format`, `Foreign.c90_index_false`, `Foreign.c90_index_of`, `Foreign.c90_index_of_substring`, `Foreign.c90_index_partial`, `Foreign.c90_length_concat`, `Foreign.c90_replace`, `Foreign.c90_split`, `Foreign.c90_substring`, `Foreign.c90_substring_ascii`, `Foreign.c90_substring_parts`, `Foreign.c90_trim`, `ForwardOut.c117_gradients_partial`, `ForwardOut.c117_order_false`, `ForwardOut.c117_other_false`, `ForwardOut.c117_outputs_partial`, `ForwardOut.c117_sparse_false`, `Front.c105_answers_partial`, `Front.c105_compiled`, `Front.c105_mixed_false`, `Front.c105_names`, `Front.c105_outputs`, `Front.c105_query`, `Front.c105_relation`, `Front.c124_accepted`, `Front.c124_right`, `Front.c34_add_partial`, `Front.c34_saturation`, `Front.c34_sub_false`, `Front.c34_sub_partial`, `Front.c36`, `Front.c36_accepts`, `Front.c36_negate`, `Front.c36_terminates`, `Front.c64_div_mod`, `Front.c65_partial`, `Front.c66_two_patterns`, `Front.c67`, `Front.c69_partial`, `Front.c84_accepts`, `Front.c84_aggregations_partial`, `Front.c84_count`, `Front.c84_ends`, `Front.c84_negated_refuted`, `Front.c84_partial`, `Front.c84_shadow_refuted`, `Import.c107_cycle`, `Import.c107_exact`, `Import.c107_history`, `Import.c107_items`, `Import.c107_terminates`, `Input.c97_alternative_choice`, `Input.c97_bool`, `Input.c97_clone`, `Input.c97_clone_positive`, `Input.c97_clone_prob`, `Input.c97_diff_prob`, `Input.c97_exclusive_prob`, `Input.c97_float`, `Input.c97_full`, `Input.c97_internalize`, `Input.c97_natural`, `Input.c97_probability`, `Input.c97_probability_partial`, `Input.c97_with_id`, `Input.c98_bool_refuted`, `Input.c98_origins_refuted`, `Input.c98_program`, `Input.c98_revisit_refuted`, `InputMap.c115_accepts`, `InputMap.c115_batch`, `InputMap.c115_facts`, `InputMap.c115_indices`, `InputMap.c115_list_partial`, `InputMap.c115_sample_dim_partial`, `InputMap.c115_sample_partial`, `InputMap.c115_string_false`, `InputMap.c115_top_dim_partial`, `InputMap.c115_top_partial`, `InputMap.c115_top_zero_false`, `Lexer.c113_blanks`, `Lexer.c113_block_comment`, `Lexer.c113_expression`, `Lexer.c113_kind`, `Lexer.c113_layout_false`, `Lexer.c113_layout_partial`, `Lexer.c113_line_comment`, `Lexer.c113_longest`, `Lexer.c113_minus_false`, `Lexer.c113_skips`, `Lexer.c113_spaced_partial`, `Lexer.c113_specialized`, `Lexer.c113_tab_false`, `Lexer.c113_tokens`, `Lexer.c113_unique`, `ListFacts.c116_debug_false`, `ListFacts.c116_disjunctions_partial`, `ListFacts.c116_retain_partial`, `Literal.c106_char_false`, `Literal.c106_int`, `Literal.c106_int_range`, `Literal.c106_no_backslash`, `Literal.c106_string_false`, `Literal.c106_unique`, `Literal.c106_unwritable_false`, `Literal.c106_writable`, `Loc.c114_lines_false`, `Loc.c114_macro`, `Loc.c114_marks_false`, `Loc.c114_marks_iff`, `Loc.c114_marks_partial`, `Loc.c114_order`, `Loc.c114_position`, `Loc.c114_prompt_partial`, `Loc.c114_report`, `Loc.c114_span_false`, `Loc.c114_span_partial`, `Loc.c114_syntax_false`, `Loc.c114_syntax_partial`, `Macro.c123_bytes_false`, `Macro.c123_delimiter_false`, `Macro.c123_exact_partial`, `Macro.c123_nothing_lost`, `Macro.c123_places`, `Plan.c48_injective`, `Plan.c48_order_preserving`, `Plan.c48_readback`, `Plan.c70_plan`, `Plan.c70_search`, `Plan.c71_negated_foreign_refuted`, `Plan.c71_partial`, `Plan.c71_stale_variables_refuted`, `Plan.c71_two_assigns_refuted`, `Plan.c72_blind_intersect_refuted`, `Plan.c72_other_group_by_refuted`, `Plan.c72_partial`, `Plan.c73_exact`, `Plan.c73_partial`, `Plan.c74`, `Plan.c75_layered_partial`, `Plan.c75_partial`, `Plan.c75_unique_partial`, `Plan.c85_demand_rules_bound`, `Plan.c85_dropped_refuted`, `Plan.c85_negated_refuted`, `Plan.c85_partial`, `Plan.c85_rejects`, `Plan.c85_stratification_refuted`, `Plan.c85_unbound_negated_refuted`, `Ram.c47`, `Ram.c47_second_definition_lost`, `Ram.c47_stop`, `Ram.c47_terminates`, `SAgg.c110_implicit`, `SAgg.c110_join`, `SAgg.c110_keys`, `SAgg.c110_mark_false`, `SAgg.c110_no_panic`, `SAgg.c110_settings`, `SAgg.c110_single`, `SAgg.c110_supported`, `SExpr.c111_digits_false`, `SExpr.c111_nan_false`, `SExpr.c111_overflow_false`, `SExpr.c111_rejected`, `SExpr.c111_same`, `SExpr.c111_short_circuit_false`, `Soft.c91_complement`, `Soft.c91_derivative_false`, `Soft.c91_equal`, `Soft.c91_monotone`, `Soft.c91_probability`, `Soft.c91_soft_eq`, `Soft.c91_soft_eq_false`, `Soft.c91_soft_eq_far`, `Soft.c91_tensor_false`, `Soft.c91_tensor_partial`, `Soft.c91_unsigned_false`, `Statics.c100_discard_false`, `Statics.c100_facts_false`, `Statics.c100_failing_expression_false`, `Statics.c100_least_fixpoint_partial`, `Statics.c100_merge`, `Statics.c100_rule_order_false`, `Statics.c100_rules`, `Statics.c100_same_result_unit`, `Statics.c100_same_tuples`, `Statics.c100_sound`, `Statics.c100_tags_false`, `Statics.c100_terminates_false`, `Statics.c100_worlds_sound`, `StrJoin.c101_choices`, `StrJoin.c101_choices_sound`, `StrJoin.c101_join`, `StrJoin.c101_join_sound`, `StrJoin.c101_no_negation_partial`, `StrJoin.c101_one`, `Syn.c112_and_or_false`, `Syn.c112_comparisons`, `Syn.c112_precedence`, `Tagged.c96_bounds`, `Tagged.c96_diverges`, `Tagged.c96_min_max`, `Tagged.c96_one_event`, `Tagged.c96_order_false`, `Tagged.c96_probability_bound`, `Tagged.c96_probability_partial`, `Tagged.c96_recursive_false`, `Tagged.c96_separate`, `Tagged.c96_sound`, `Tagged.c96_worlds_partial`, `Ty.c86_inference_ends_partial`, `Ty.c87_cast_allowed_partial`, `Ty.c87_constraint_bool_partial`, `Ty.c87_derived_typed_partial`, `Ty.c87_no_type_error_partial`, `Ty.c87_supported_false`, `Ty.c87_typed_false`, `Ty.c88_declared_kept_partial`, `Ty.c88_fact_literals_partial`, `Ty.c88_literal_kept_iff`, `WAgg.c102_avg_false`, `WAgg.c102_avg_partial`, `WAgg.c102_bounds`, `WAgg.c102_discrete`, `WAgg.c102_example`, `WAgg.c102_expected`, `WAgg.c102_mean_false`, `WAgg.c102_sum`, `WAgg.c103_default_false`, `WAgg.c103_disjunct`, `WAgg.c103_disjunct_args`, `WAgg.c103_float`, `WAgg.c103_forgets_example`, `WAgg.c103_forgets_false`, `WAgg.c103_proofs`, `WAgg.c103_softmax`, `WAgg.c103_zero_false`, `WAgg.c104_categorical`, `WAgg.c104_uniform`, `Warn.c122_again_false`, `Warn.c122_exact`, `Warn.c122_import_false`, `Warn.c122_place_false`, `Warn.c122_place_partial`, `Warn.c122_quiet`, `Warn.c122_rejected`, `Warn.c122_rejected_false`, `Warn.c122_warnings`, `c01_from_vec`, `c01_from_vec_tuples`, `c02_merge`, `c02_merge_any`, `c03_insert`, `c03_insert_unchecked`, `c05_gallop_index_partial`, `c06_changed_any`, `c06_changed_lfp`, `c07_complete`, `c08_dfs`, `c09_astar`, `c09_beam`, `c10_join`, `c119_entities_false`, `c119_events`, `c119_goal_false`, `c119_loop_partial`, `c11_duplicates_lost`, `c11_intersect`, `c13_difference`, `c13_difference_mem`, `c14_antijoin`, `c14_antijoin_no_negation`, `c15_join_over_difference_incomplete`, `c15_semi_naive`, `c15_semi_naive_negation`, `c16_least_fixpoint`, `c16_no_panic`, `c16_sound`, `c17_terminates_false`, `c17_terminates_partial`, `c17_terminates_small_partial`, `c18_dfs_limit_panics`, `c18_iteration_limit`, `c19_order`, `c19_partition`, `c19_recursive`, `c19_rules`, `c20_deterministic`, `c20_rejects`, `c21_eval`, `c22_count`, `c22_gradient`, `c23_leaves`, `c24_negation`, `c25_add_mult_prob_not_distributive`, `c25_tropical`, `c26_add`, `c26_constants`, `c26_history`, `c26_mult`, `c26_semiring`, `c27_add`, `c27_at_most_k`, `c27_history`, `c27_mult`, `c28_negate`, `c28_negate_not_best`, `c28_terminates`, `c29_conflict`, `c29_merge`, `c29_merge_fails`, `c29_no_panic`, `c44_add_mult_prob`, `c44_clamp_gradient`, `c44_gradient`, `c44_gradient_dense`, `c45_geometric_partial`, `c46_find`, `c49_proofs`, `c49_top_k`, `c51_unique_tags_partial`, `c52_mult_unsound`, `c53_dnf`, `c53_topk_lower_bound`, `c53_topk_output`, `c54_actual`, `c54_no_exclusions_partial`, `c54_refuted`, `c55_remove_unused`, `c61_max_mult`, `c61_min_max`, `c61_real_tropical`, `c61_real_tropical_semiring`, `c61_tropical`, `c62_discard_proofs`, `c63_min_max_derivative`, `c63_noisy_or`, `c63_noisy_or_not_distributive`, `c81_boolean`, `c81_false`, `c81_min_max`, `c81_probability_bound`, `c81_probability_partial`, `c81_proofs_partial`, `c81_sound`, `c81_top_k_partial`, `c81_top_k_sound`, `c81_worlds_partial`, `c95_add`, `c95_add_best_partial`, `c95_add_cnf_partial`, `c95_at_most_k`, `c95_best_false`, `c95_exclusive_false`, `c95_history`, `c95_history_exact_partial`, `c95_history_false`, `c95_history_true_false`, `c95_lower_bound`, `c95_mult`, `c95_mult_best_partial`, `c95_mult_cnf`, `c95_negate`, `c95_output`, `c95_total`, `reachable_wf`

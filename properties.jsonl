{"id": "C01", "title": "Building a collection deduplicates and combines tags", "statement": "Building a sorted collection from any vector of tagged tuples yields a strictly ascending collection that contains exactly the tuples of the vector, and the tag stored for a tuple is the provenance-addition of the tags of all its occurrences in the vector.", "quantifier": "all vectors of tagged tuples, all provenances (for tags: associative-commutative addition is not needed because the order of occurrences is stated)", "why_tests_cant": "The in-place compaction loop depends on every pattern of repetitions at every length; tests only sample patterns.", "anchors": ["core/src/runtime/dynamic/collections/sorted.rs:from_vec (60-86)", "core/src/runtime/provenance/tag.rs"]}
{"id": "C02", "title": "Merging two collections is a tag-adding union", "statement": "Merging two sorted collections yields a sorted collection holding exactly the union of the tuples; a tuple in both gets the sum of the two tags and a tuple in one keeps its tag. The fast append path and the swap of operands do not change this.", "quantifier": "all pairs of sorted collections, all provenances with commutative addition", "why_tests_cant": "The linear merge with three special paths has unboundedly many interleavings of the two inputs.", "anchors": ["core/src/runtime/dynamic/collections/sorted.rs:merge (208-265)"]}
{"id": "C03", "title": "Inserting one element keeps the collection sorted and unique", "statement": "Inserting a tagged tuple in a sorted collection gives a sorted collection in which the tuple is present, its tag is the sum of old and new tag if it was already present, and every other tuple is untouched.", "quantifier": "all sorted collections, all elements", "why_tests_cant": "Correctness depends on the galloping search for every length and position.", "anchors": ["core/src/runtime/dynamic/collections/sorted.rs:insert (184-199)", "core/src/runtime/utils/gallop.rs"]}
{"id": "C04", "title": "Retain is an order-preserving filter", "statement": "Retaining the elements selected by an (index, element) predicate leaves exactly the selected elements, in their original order.", "quantifier": "all collections and all predicates on index and element", "why_tests_cant": "The swap-based compaction must be right for every selection pattern.", "anchors": ["core/src/runtime/dynamic/collections/sorted.rs:retain (116-154)"]}
{"id": "C05", "title": "Galloping search finds the boundary", "statement": "Searching a sorted slice from position begin with a monotone predicate returns the first position at or after begin whose element does not satisfy the predicate.", "quantifier": "all slices, all start positions, all downward closed predicates", "why_tests_cant": "Exponential-then-binary probing touches different positions for each length; an off-by-one shows only for special lengths.", "anchors": ["core/src/runtime/utils/gallop.rs:gallop_index (24-45)"]}
{"id": "C06", "title": "No derived fact is lost between iterations", "statement": "After one 'changed' step of a relation under the default scheduler, the set of tuples known to the relation (stable plus recent) is exactly the set known before plus the tuples that were waiting to be added; nothing is dropped and nothing appears from nowhere.", "quantifier": "all relation states with sorted batches, all provenances", "why_tests_cant": "The state space (batches, sizes, overlaps) is unbounded.", "anchors": ["core/src/runtime/dynamic/relation.rs:changed (156-190)", "core/src/runtime/env/schedulers/lfp.rs:schedule_lfp"]}
{"id": "C07", "title": "Completed relation returns every fact once", "statement": "Completing a relation whose recent and pending parts are empty returns one sorted collection with exactly the tuples of all stable batches, each once, with the sum of the tags it has in the batches; completing a relation with recent or pending facts is refused (assertion failure).", "quantifier": "all relation states", "why_tests_cant": "Number and content of stable batches are unbounded.", "anchors": ["core/src/runtime/dynamic/relation.rs:complete (224-232)"]}
{"id": "C08", "title": "Depth-first scheduling loses no fact", "statement": "One step of the depth-first scheduler keeps every pending and wait-listed tuple: each ends up in stable, recent or the wait list, and recent holds at most one tuple.", "quantifier": "all relation states, wait lists and provenances", "why_tests_cant": "Loss could depend on overlaps of pending facts with stable batches of any size.", "anchors": ["core/src/runtime/env/schedulers/dfs.rs (9-91)"]}
{"id": "C09", "title": "A* and beam scheduling lose no fact", "statement": "One step of the A* or beam scheduler keeps every pending and wait-listed tuple: each ends up in stable, recent or the wait list; A* schedules at most one and beam at most beam_size tuples.", "quantifier": "all relation states, wait lists, beam sizes and weights", "why_tests_cant": "Same as C08, plus a priority queue whose order depends on weights.", "anchors": ["core/src/runtime/env/schedulers/astar.rs (11-94)", "core/src/runtime/env/schedulers/beam.rs (11-77)"]}
{"id": "C10", "title": "Join computes the relational join", "statement": "Joining two sorted batches yields exactly the tuples (k,a,b) such that (k,a) is in the left and (k,b) in the right batch, with tag the product of the two tags, each pair contributing once.", "quantifier": "all pairs of sorted batches of key/value tuples, any group sizes", "why_tests_cant": "The two-pointer join with nested group expansion has unbounded group shapes.", "anchors": ["core/src/runtime/dynamic/dataflow/join.rs:next_elem (84-123)"]}
{"id": "C11", "title": "Intersection computes the set intersection", "statement": "Intersecting two sorted batches yields exactly the common tuples, with tag the product of the two tags.", "quantifier": "all pairs of sorted batches", "why_tests_cant": "Pointer-advancing loop over unbounded interleavings.", "anchors": ["core/src/runtime/dynamic/dataflow/intersect.rs (79-103)"]}
{"id": "C12", "title": "Product computes the cartesian product", "statement": "The product of two batches yields each pair exactly once with the product of tags.", "quantifier": "all pairs of batches (including empty ones)", "why_tests_cant": "Iterator restart logic for all sizes.", "anchors": ["core/src/runtime/dynamic/dataflow/product.rs (79-96)"]}
{"id": "C13", "title": "Difference removes or down-weights exactly the subtracted tuples", "statement": "The difference of two batches keeps exactly the left tuples absent from the right with their tag, and for tuples in both yields the provenance subtraction if defined (dropping the tuple when it is not).", "quantifier": "all pairs of sorted batches, all provenances", "why_tests_cant": "Pointer-advancing loop over unbounded interleavings.", "anchors": ["core/src/runtime/dynamic/dataflow/difference.rs (74-109)"]}
{"id": "C14", "title": "Anti-join keeps exactly the left tuples with no matching key", "statement": "The anti-join of a batch of (k,a) tuples with a batch of keys keeps exactly the left tuples whose key is absent on the right, and for a matching key yields the provenance subtraction if defined.", "quantifier": "all pairs of sorted batches, all provenances", "why_tests_cant": "Pointer-advancing loop with groups of equal keys of any size.", "anchors": ["core/src/runtime/dynamic/dataflow/antijoin.rs (79-127)"]}
{"id": "C15", "title": "Semi-naive deltas are complete", "statement": "For joins, intersections and products, the facts produced from (stable,recent), (recent,stable) and (recent,recent) together with those from (stable,stable) are exactly the facts produced from the union of stable and recent on both sides.", "quantifier": "all contents of stable and recent batches", "why_tests_cant": "A missed combination shows only for facts arriving in particular iterations.", "anchors": ["core/src/runtime/dynamic/dataflow/join.rs (19-50)", "core/src/runtime/dynamic/dataflow/product.rs", "core/src/runtime/dynamic/dataflow/intersect.rs"]}
{"id": "C16", "title": "A stratum computes the least fixed point", "statement": "Running a stratum of positive rules to completion yields exactly the least set of tuples closed under the rules and containing the input facts.", "quantifier": "all positive dataflow programs over union, project, filter, find, join, intersect and product, all input facts, all tag algebras, all terminating runs", "why_tests_cant": "The claim is about every program and every number of iterations.", "anchors": ["core/src/runtime/dynamic/iteration.rs:run (98-123)", "core/src/runtime/dynamic/relation.rs:changed", "core/src/runtime/dynamic/dataflow/"]}
{"id": "C17", "title": "Evaluation terminates over finite domains", "statement": "If the tuples derivable by a stratum form a finite set and tags saturate immediately (unit provenance), then iteration reaches a round in which nothing changes after finitely many rounds.", "quantifier": "all programs, all finite derivable sets", "why_tests_cant": "Termination over all inputs cannot be tested.", "anchors": ["core/src/runtime/dynamic/iteration.rs:run (98-123)", "core/src/runtime/env/schedulers/lfp.rs"]}
{"id": "C18", "title": "The iteration limit bounds the work and keeps results sound", "statement": "With an iteration limit n the rule body runs at most n+1 times, and every tuple reported is derivable (belongs to the unlimited least fixed point).", "quantifier": "all programs, all limits", "why_tests_cant": "All limits and all programs.", "anchors": ["core/src/runtime/dynamic/iteration.rs:need_to_iterate (143-175)", "core/src/runtime/env/stopping_criteria.rs"]}
{"id": "C19", "title": "Stratification respects dependencies", "statement": "Whenever a program is accepted, each predicate belongs to exactly one stratum, every predicate a stratum depends on is in the same or an earlier stratum, and every predicate it depends on through negation or aggregation is in a strictly earlier stratum.", "quantifier": "all dependency graphs", "why_tests_cant": "Every graph shape; the order produced by the work-list is not visible on small graphs.", "anchors": ["core/src/compiler/back/scc.rs:stratify (102-166)"]}
{"id": "C20", "title": "Programs with negative cycles are rejected, others accepted", "statement": "Stratification fails exactly when two mutually dependent predicates are connected by a negative or aggregation dependency.", "quantifier": "all dependency graphs", "why_tests_cant": "Every graph shape.", "anchors": ["core/src/compiler/back/scc.rs:stratify (102-166)"]}
{"id": "C21", "title": "Compiled decision diagram is equivalent to the formula", "statement": "The sentential decision diagram built from a Boolean formula evaluates, on every assignment of the variables, to the value of the formula; evaluation never hits the 'mutual exclusion violated' panic.", "quantifier": "all Boolean formulas, all assignments", "why_tests_cant": "Formulas and assignments are unbounded.", "anchors": ["lib/sdd/src/bottom_up.rs", "lib/sdd/src/sdd.rs:eval (121-151)", "lib/sdd/src/vtree.rs"]}
{"id": "C22", "title": "Weighted model count is exact", "statement": "Evaluating the compiled diagram in a commutative ring with negation 1-x gives the sum, over all satisfying assignments of the formula's variables, of the product of the literal weights.", "quantifier": "all Boolean formulas, all weight functions", "why_tests_cant": "Exactness over all formulas and weights.", "anchors": ["lib/sdd/src/sdd.rs:eval_t (153-179)", "lib/sdd/src/bottom_up.rs", "core/src/runtime/provenance/common/as_boolean_formula.rs:wmc (10-20)"]}
{"id": "C23", "title": "Variable trees contain each variable exactly once", "statement": "The balanced, left-linear and right-linear variable trees built from a list of distinct variables have exactly these variables as leaves, in order.", "quantifier": "all variable lists", "why_tests_cant": "Recursive midpoint arithmetic over all lengths.", "anchors": ["lib/sdd/src/vtree.rs (99-198)"]}
{"id": "C24", "title": "Min-max probability is a distributive lattice with involution", "statement": "The min-max-prob tag operations satisfy the commutative semiring laws with zero 0 and one 1 on [0,1], addition is idempotent and absorbing, and negation is an order-reversing involution satisfying De Morgan.", "quantifier": "all tags in a linear order with bounds", "why_tests_cant": "Algebraic laws for all values.", "anchors": ["core/src/runtime/provenance/probabilistic/min_max_prob.rs"]}
{"id": "C25", "title": "Boolean, natural and tropical tags form commutative semirings", "statement": "The boolean, natural and tropical provenances satisfy the commutative semiring laws, so results do not depend on the order in which facts are combined.", "quantifier": "all tag values", "why_tests_cant": "Laws for all values.", "anchors": ["core/src/runtime/provenance/discrete/boolean.rs", "core/src/runtime/provenance/discrete/natural.rs", "core/src/runtime/provenance/discrete/tropical.rs"]}
{"id": "C26", "title": "Proof tags denote Boolean combinations of facts", "statement": "With the proofs provenance, a sum of tags is true in a possible world exactly when one of the summands is, and a product exactly when both factors are, for every world consistent with the mutual exclusions.", "quantifier": "all tags, all possible worlds", "why_tests_cant": "All tags and worlds.", "anchors": ["core/src/runtime/provenance/discrete/proofs.rs"]}
{"id": "C27", "title": "Top-k proofs under-approximates and keeps at most k proofs", "statement": "Every sum and product of top-k-proofs tags holds at most k conjunctions, each of which is a conjunction of the exact result, so the tag implies the exact one; when at most k exist the result is exact.", "quantifier": "all tags, all k, all probabilities, all worlds", "why_tests_cant": "All k, tags and worlds.", "anchors": ["core/src/runtime/provenance/common/dnf_context.rs (32-41,211-224)"]}
{"id": "C28", "title": "Negation of a top-k tag never overlaps it", "statement": "Each conjunction of the negated tag contradicts the original tag: tag and negated tag are never both true in a world; with k large enough the negation is exact.", "quantifier": "all tags, all k, all worlds", "why_tests_cant": "CNF to DNF conversion loops over unbounded clause sets.", "anchors": ["core/src/runtime/provenance/common/dnf_context.rs:cnf2dnf_k (70-193), top_k_negate (226-236)"]}
{"id": "C29", "title": "Conflicting conjunctions are discarded, consistent ones kept", "statement": "Conjoining two proofs yields the sorted union of their literals; it is reported invalid exactly when it contains a literal and its negation, or two members of the same mutual exclusion.", "quantifier": "all pairs of sorted proofs, all exclusion groups", "why_tests_cant": "Merge loop over unbounded proofs.", "anchors": ["core/src/runtime/provenance/common/clause.rs (57-74,116-218)", "core/src/runtime/provenance/common/disjunction.rs"]}
{"id": "C30", "title": "Constant folding preserves rules", "statement": "Constant folding rewrites a rule into one that derives the same facts.", "quantifier": "all rules, all databases", "why_tests_cant": "All rules and databases.", "anchors": ["core/src/compiler/back/optimizations/constant_folding.rs"]}
{"id": "C31", "title": "Constant propagation preserves rules", "statement": "Constant propagation rewrites a rule into one that derives the same facts.", "quantifier": "all rules, all databases", "why_tests_cant": "All rules and databases.", "anchors": ["core/src/compiler/back/optimizations/constant_propagation.rs (5-172)"]}
{"id": "C32", "title": "Equality propagation preserves rules", "statement": "Equality propagation rewrites a rule into one that derives the same facts.", "quantifier": "all rules, all databases", "why_tests_cant": "All rules and databases.", "anchors": ["core/src/compiler/back/optimizations/equality_propagation.rs (7-182)"]}
{"id": "C33", "title": "Projection fusion preserves results", "statement": "Replacing two consecutive projections by their composition yields the same tuples for every input.", "quantifier": "all projection expressions and tuples", "why_tests_cant": "All expressions and tuples.", "anchors": ["core/src/common/expr.rs:compose (97-124)", "core/src/compiler/ram/optimizations/project_cascade.rs"]}
{"id": "C34", "title": "Arithmetic in rule bodies can be inverted", "statement": "When a rule body contains z == x + y or z == x - y, the assignments generated to compute a missing operand from the other two give values satisfying the written equation.", "quantifier": "all integer operands", "why_tests_cant": "All operand values, all bound/free patterns.", "anchors": ["core/src/compiler/front/f2b/flatten_expr.rs:collect_flattened_literals_of_binary_op (126-166)"]}
{"id": "C35", "title": "Rule bodies are normalised faithfully", "statement": "Splitting a rule body made of and/or into several conjunctive rules derives exactly the tuples the original formula derives.", "quantifier": "all formulas, all interpretations of atoms", "why_tests_cant": "Nesting depth and width are unbounded.", "anchors": ["core/src/compiler/front/analyzers/boundness/context.rs:from_formula (56-88), join (123-129)"]}
{"id": "C36", "title": "Negation and implication are rewritten faithfully", "statement": "The negation of a formula is true exactly when the formula is false, and A => B is rewritten into a formula true exactly when A is false or B is true.", "quantifier": "all formulas without aggregates, all interpretations", "why_tests_cant": "Nesting is unbounded.", "anchors": ["core/src/compiler/front/ast/formula.rs:negate (19-43)", "core/src/compiler/front/transformations/implies_to_disjunction.rs"]}
{"id": "C37", "title": "Counting over uncertain facts covers all worlds", "statement": "In the multi-world count/sum/prod aggregation, in each possible world exactly one result is tagged true for each chosen set, and it is the aggregate of the facts true in that world.", "quantifier": "all batches, all possible worlds", "why_tests_cant": "2^n worlds for every n.", "anchors": ["core/src/common/foreign_aggregates/count.rs", "core/src/common/foreign_aggregates/sum_prod.rs"]}
{"id": "C38", "title": "Existence aggregation is exact", "statement": "In each possible world the exists aggregation tags true exactly one of its outcomes: 'true' when some fact of the group holds, 'false' otherwise.", "quantifier": "all batches, all worlds", "why_tests_cant": "2^n worlds for every n.", "anchors": ["core/src/common/foreign_aggregates/exists.rs (60-92)"]}
{"id": "C39", "title": "Minimum and maximum over uncertain facts are exact", "statement": "In each possible world the multi-world min/max (and argmin/argmax) aggregation tags true exactly the extremal elements among the facts true in that world, including all ties.", "quantifier": "all batches, all worlds", "why_tests_cant": "2^n worlds and all tie patterns.", "anchors": ["core/src/common/foreign_aggregates/min_max.rs (206-282)"]}
{"id": "C40", "title": "Top-k sampling returns k heaviest facts", "statement": "Top-k selection returns min(k,n) distinct elements and no element left out is heavier than an element returned.", "quantifier": "all weights, all k", "why_tests_cant": "All orders of weights.", "anchors": ["core/src/common/foreign_aggregates/top_k.rs:aggregate_top_k_helper (85-149)"]}
{"id": "C41", "title": "Range predicate enumerates the half-open interval", "statement": "range(begin,end,i) yields exactly the integers i with begin <= i < end, in increasing order, each once, and never overflows.", "quantifier": "all begin and end of all fixed-width integer types", "why_tests_cant": "All pairs of bounds.", "anchors": ["core/src/common/foreign_predicates/range.rs (24-63)"]}
{"id": "C42", "title": "Allocated identifiers are never reused", "statement": "Identifiers handed out by an allocator are pairwise different under any interleaving of allocations through clones of the shared allocator.", "quantifier": "all call sequences and interleavings", "why_tests_cant": "All histories.", "anchors": ["core/src/utils/id_allocator.rs"]}
{"id": "C43", "title": "Parsed durations have the value written", "statement": "A duration written as a list of (signed decimal value, unit) pairs denotes the sum of the values: whole values exactly, decimals truncated to nanoseconds.", "quantifier": "all sequences of value/unit pairs", "why_tests_cant": "All values and signs.", "anchors": ["lib/parse_relative_duration/src/parse.rs"]}
{"id": "C44", "title": "Dual numbers compute exact derivatives", "statement": "Addition, multiplication and negation of dual numbers compute the value and every partial derivative of the corresponding polynomial; gradients stay sorted and unique.", "quantifier": "all expressions over all variables", "why_tests_cant": "All expressions, all sparsity patterns.", "anchors": ["core/src/runtime/provenance/common/dual_number_2.rs", "core/src/runtime/provenance/common/dual_number.rs"]}
{"id": "C45", "title": "Stable batches stay geometric", "statement": "At every time the sizes of the stable batches of a relation at least double from newest to oldest, so a relation with n facts has at most log2(n)+1 batches.", "quantifier": "all histories of iterations", "why_tests_cant": "All histories.", "anchors": ["core/src/runtime/dynamic/relation.rs:changed (156-166)"]}
{"id": "C46", "title": "Constant-key lookup finds exactly the matching tuples", "statement": "The find operator on a sorted batch of (k,a) tuples returns exactly the tuples with the requested key.", "quantifier": "all sorted batches and keys", "why_tests_cant": "Binary/galloping search over all sizes.", "anchors": ["core/src/runtime/dynamic/dataflow/find.rs (52-70)"]}
{"id": "C47", "title": "Duplicate temporary relations are merged safely", "statement": "RAM deduplication of temporary relations with identical definitions leaves the contents of all other relations unchanged.", "quantifier": "all RAM programs with single-definition temporaries", "why_tests_cant": "All programs.", "anchors": ["core/src/compiler/ram/optimizations/deduplicate.rs"]}
{"id": "C48", "title": "Column permutation is invertible and order-aware", "statement": "Permuting the columns of a relation and projecting back gives the original tuples.", "quantifier": "all permutations and tuples", "why_tests_cant": "All arities and permutations.", "anchors": ["core/src/compiler/back/permutation.rs"]}
{"id": "C49", "title": "Mutually exclusive facts are never jointly used", "statement": "Facts tagged as members of the same exclusion never occur positively together in a proof of any derived fact.", "quantifier": "all derivations", "why_tests_cant": "All derivations.", "anchors": ["core/src/runtime/provenance/common/disjunction.rs", "core/src/runtime/provenance/discrete/proofs.rs"]}
{"id": "C50", "title": "Gradient-free composition: pairing provenances is componentwise", "statement": "Running with a pair of provenances gives, in each component, the tag obtained by running with that provenance alone, as far as addition, multiplication, zero and one are concerned.", "quantifier": "all operation histories", "why_tests_cant": "All histories.", "anchors": ["core/src/runtime/provenance/composition/dual.rs"]}
{"id": "C51", "title": "Each fact is stored once with its combined tag", "statement": "After every iteration step under the default scheduler each tuple is stored exactly once (stable or recent), and its tag is the sum of its previous tag and of the tags it was newly derived with.", "quantifier": "all relation states with disjoint stable batches, all provenances", "why_tests_cant": "Depends on sizes of pending and stable batches (galloping or linear scan).", "anchors": ["core/src/runtime/env/schedulers/lfp.rs (9-39)", "core/src/runtime/env/schedulers/utils.rs"]}
{"id": "C52", "title": "Sample-k proofs under-approximates", "statement": "With sampled proofs, a sum of tags is true only in worlds where a summand is, and a product only in worlds where both factors are.", "quantifier": "all tags, all k, all random samples, all worlds", "why_tests_cant": "Random samples and all worlds.", "anchors": ["core/src/runtime/provenance/probabilistic/sample_k_proofs.rs (99-118)", "core/src/runtime/provenance/common/dnf_context.rs:sample_k_clauses (43-68)"]}
{"id": "C53", "title": "Reported probabilities are exact for the proofs kept", "statement": "The probability reported for an output tuple by the top-k proofs provenance is the exact probability that at least one of the proofs kept for it holds, the input facts being independent; without negation it never exceeds the exact probability of the query.", "quantifier": "all tags, all probabilities, all histories of provenance operations", "why_tests_cant": "Exactness over all sets of proofs and all probabilities; the diagram, the variable tree and the count all have to be right.", "anchors": ["core/src/runtime/provenance/probabilistic/top_k_proofs.rs:recover_fn (91-100)", "core/src/runtime/provenance/common/as_boolean_formula.rs:wmc (10-20)", "core/src/runtime/provenance/common/dnf_formula.rs:as_boolean_formula (106-115)", "lib/sdd/src"]}
{"id": "C54", "title": "Counting with mutual exclusions never invents probability", "statement": "With counting of mutual exclusions switched on, the probability reported for a tuple is at most the probability that one of its proofs holds; in particular a tuple without a proof has probability 0.", "quantifier": "all tags, all exclusions, all probabilities", "why_tests_cant": "Needs the count for every combination of proofs and exclusions.", "anchors": ["core/src/runtime/provenance/common/as_boolean_formula.rs:wmc_with_disjunctions (23-47)"]}
{"id": "C55", "title": "Removing unused relations keeps all an output needs", "statement": "When the compiler removes unused relations, no output and nothing an output depends on, directly or through other relations, is removed, every rule of a kept relation is kept, and compilation of what remains cannot panic on a missing relation.", "quantifier": "all programs, all sets of outputs", "why_tests_cant": "Reachability over all dependency graphs.", "anchors": ["core/src/compiler/back/compile.rs:remove_unused_relations (54-69)", "core/src/compiler/back/scc.rs:unused_relations (82-96)"]}
{"id": "C56", "title": "Integer averages", "statement": "The average of a group of integers is the sum divided by the number of facts, and asking for it never crashes on a non-empty group; without `!`, in each world it is the average of the facts true in it.", "quantifier": "all groups, all provenances, all fixed-width integer types", "why_tests_cant": "All values and sizes of groups.", "anchors": ["core/src/common/foreign_aggregates/avg.rs", "core/src/common/value_type.rs:avg (306-372)"]}
{"id": "C57", "title": "Fuzzy counts have the right degree", "statement": "With min-max tags, for every n up to the number of facts exactly one count result n is reported, and its tag is the greatest degree to which some choice of n facts is exactly the set of true facts.", "quantifier": "all batches of tagged facts", "why_tests_cant": "The optimum ranges over all 2^n choices.", "anchors": ["core/src/runtime/provenance/probabilistic/min_max_prob.rs (85-120)"]}
{"id": "C58", "title": "Grouping partitions facts by key", "statement": "Grouped aggregation aggregates, for every key, exactly the facts with that key, once; with an explicit group-by relation every group-by fact gets a result, over the empty group if need be, with its own tag conjoined.", "quantifier": "all sorted batches, all aggregators", "why_tests_cant": "All patterns of keys on both sides.", "anchors": ["core/src/runtime/dynamic/dataflow/aggregation/implicit_group.rs", "core/src/runtime/dynamic/dataflow/aggregation/join_group.rs", "core/src/runtime/dynamic/dataflow/aggregation/single_group.rs"]}
{"id": "C59", "title": "Ranking, sorting and enumeration number each fact once", "statement": "enumerate, rank and sort return every fact exactly once with its tag, numbered 0,1,2,... in (the required) order.", "quantifier": "all batches", "why_tests_cant": "All orders and ties.", "anchors": ["core/src/common/foreign_aggregates/enumerate.rs (54-64)", "core/src/common/foreign_aggregates/rank.rs (66-100)", "core/src/common/foreign_aggregates/sort.rs (106-145)"]}
{"id": "C60", "title": "Optimizing a rule terminates and loses no answers", "statement": "The loop that folds and propagates constants in a rule always stops, no derivation of a rule is ever lost by equality propagation, constant folding and constant propagation together, and removing `true`, rules containing `false` and rules without a body leaves the derived facts unchanged.", "quantifier": "all rules without entity creation, all databases", "why_tests_cant": "Termination and preservation range over all rules; a loop that runs forever on one shape of rule is not found by running some programs.", "anchors": ["core/src/compiler/back/compile.rs:apply_optimizations (16-48)", "core/src/compiler/back/optimizations/constant_folding.rs", "core/src/compiler/back/optimizations/constant_propagation.rs", "core/src/compiler/back/optimizations/equality_propagation.rs", "core/src/compiler/back/optimizations/remove_true_literals.rs", "core/src/compiler/back/optimizations/remove_false_rules.rs", "core/src/compiler/back/optimizations/empty_rule_to_fact.rs"]}
{"id": "C61", "title": "A tag summarises all derivations of a fact", "statement": "The tag computed for a fact is the summary of all its derivations that the provenance promises: with boolean tags whether one of them uses true facts only, with natural tags the sum of the products of the tags used (the number of derivations if inputs are tagged 1), with tropical tags the cost of a cheapest one, with min-max-prob tags the best bottleneck, with max-mult-prob tags the probability of a most likely one.", "quantifier": "all histories of additions and multiplications, all input tags", "why_tests_cant": "A test fixes one derivation tree; the claim ranges over all of them", "anchors": ["core/src/runtime/provenance/discrete/boolean.rs:BooleanProvenance", "core/src/runtime/provenance/discrete/natural.rs:NaturalProvenance", "core/src/runtime/provenance/discrete/tropical.rs:TropicalProvenance", "core/src/runtime/provenance/numerical/real_tropical.rs:RealTropicalProvenance", "core/src/runtime/provenance/probabilistic/min_max_prob.rs:MinMaxProbProvenance", "core/src/runtime/provenance/differentiable/diff_max_mult_prob.rs:DiffMaxMultProbProvenance"]}
{"id": "C62", "title": "Only impossible facts are discarded", "statement": "A provenance drops a fact only if its tag says the fact is impossible (the zero of the algebra, or a probability at most the configured threshold), so early removal never loses an answer.", "quantifier": "all tags of all provenances", "why_tests_cant": "The discard test is applied to every tag at every step; tests see a few tags", "anchors": ["core/src/runtime/provenance/provenance.rs:discard", "core/src/runtime/provenance/numerical/real_tropical_proofs.rs:discard", "core/src/runtime/provenance/discrete/natural.rs:discard"]}
{"id": "C63", "title": "Noisy-or probabilities and min-max derivatives are right", "statement": "With the nand provenances the probability of a fact with several derivations is that of a disjunction of independent events, with the gradient of that expression; with diff-min-max-prob the tag names the one input whose change moves the probability of the fact, with the right sign.", "quantifier": "all formulas over input facts, all probabilities without ties", "why_tests_cant": "Derivatives are claims about a neighbourhood of the inputs, not about one input", "anchors": ["core/src/runtime/provenance/differentiable/diff_nand_mult_prob.rs:DiffNandMultProbProvenance", "core/src/runtime/provenance/differentiable/diff_nand_min_prob.rs:DiffNandMinProbProvenance", "core/src/runtime/provenance/differentiable/diff_min_max_prob.rs:DiffMinMaxProbProvenance"]}
{"id": "C64", "title": "Operators compute what they say", "statement": "On integers of one type + and - give the representable integer nearest to the exact result, * / % give the exact product, quotient and remainder or stop the program, comparisons are those of the integers; operators on booleans and strings have their usual meaning; operands of different types are never mixed silently; results are always representable.", "quantifier": "all operators, all operands of all fixed-width integer types", "why_tests_cant": "All pairs of operands of all widths.", "anchors": ["core/src/runtime/env/environment.rs:eval_binary (291-572), eval_unary (574-710)"]}
{"id": "C65", "title": "A compiled rule derives what its text says", "statement": "The rules a user's rule is turned into (sugar removed, body split into conjunctions, expressions flattened) derive, from any facts, exactly the tuples for which some values of the variables make the body true.", "quantifier": "all rules, all databases, all aggregator results", "why_tests_cant": "Programs are unboundedly nested; every construct can occur in every other.", "anchors": ["core/src/compiler/front/transform.rs", "core/src/compiler/front/f2b/f2b.rs:rule_decl_to_back_rules", "core/src/compiler/front/f2b/flatten_expr.rs", "core/src/compiler/front/analyzers/boundness/context.rs"]}
{"id": "C66", "title": "Patterns match the values they describe", "statement": "`case x is P` is true of exactly the values built by the constructors P names from values that match its arguments, for patterns nested to any depth, also when several patterns are applied to one variable.", "quantifier": "all patterns, all databases of entities", "why_tests_cant": "Patterns of all depths.", "anchors": ["core/src/compiler/front/transformations/desugar_case_is.rs"]}
{"id": "C67", "title": "Nested expressions are flattened faithfully", "statement": "Computing nested expressions step by step through intermediate variables, in heads, atoms, constraints and negated atoms, leaves the derived tuples unchanged.", "quantifier": "all expressions, all rules", "why_tests_cant": "Expressions of all depths.", "anchors": ["core/src/compiler/front/f2b/flatten_expr.rs", "core/src/compiler/front/f2b/f2b.rs:formula_to_back_rules (315-378)"]}
{"id": "C68", "title": "Ranges contain what they say", "statement": "`x in a..b` is true of a, ..., b-1 and `x in a..=b` of a, ..., b.", "quantifier": "all bounds", "why_tests_cant": "All pairs of bounds including the extreme ones.", "anchors": ["core/src/compiler/front/transformations/desugar_range.rs"]}
{"id": "C69", "title": "A rule with several heads is the rules with each head", "statement": "A rule with a conjunction of heads is accepted whenever the rules with each single head are, and derives what they derive.", "quantifier": "all heads and bodies", "why_tests_cant": "All bodies, including all sugar.", "anchors": ["core/src/compiler/front/transformations/conjunctive_head.rs", "core/src/compiler/front/transform.rs"]}
{"id": "C70", "title": "Every rule gets a plan that reads each of its atoms once", "statement": "For every rule the compiler's search for an order of the atoms ends, whatever the beam width, and the plan it returns reads every atom of the rule exactly once and subtracts each negated atom.", "quantifier": "all rules without foreign predicates, all heuristics weights, all beam widths", "why_tests_cant": "The search is over all orders of arbitrarily many atoms.", "anchors": ["core/src/compiler/back/query_plan/context.rs", "core/src/compiler/back/query_plan/state.rs", "core/src/compiler/back/query_plan/arc.rs"]}
{"id": "C71", "title": "Nothing written in a rule's body is ignored", "statement": "The plan of a rule is satisfied exactly by the values of the variables for which every literal of its body is true.", "quantifier": "all rules, all facts", "why_tests_cant": "Which literals are applied, and when, depends on the order the search finds and on what is bound at each point.", "anchors": ["core/src/compiler/back/query_plan/context.rs"]}
{"id": "C72", "title": "Executing a plan computes the plan", "statement": "The operators a plan is translated to (joins, intersections, products, differences, filters, projections, permuted and temporary relations) produce exactly the tuples of the values the plan allows.", "quantifier": "all plans, all tuples of variables asked for, all contents of relations", "why_tests_cant": "Plans nest arbitrarily and the translation distinguishes many shapes.", "anchors": ["core/src/compiler/back/b2r.rs:plan_to_ram_dataflow", "core/src/compiler/back/var_tuple.rs"]}
{"id": "C73", "title": "A rule derives what it says after planning", "statement": "The update a rule is finally compiled to derives exactly the facts of its head for the values that satisfy its body, with constants, repeated variables and alternatives in the head in place.", "quantifier": "all rules, all contents of relations, all iteration orders of the compiler's sets", "why_tests_cant": "Composition of planning and translation over all rules; hash iteration orders differ from run to run.", "anchors": ["core/src/compiler/back/b2r.rs:plan_to_ram_update", "core/src/compiler/back/query_plan/context.rs"]}
{"id": "C74", "title": "Operators that walk sorted inputs get sorted inputs", "statement": "Every join, intersection, difference, antijoin and search in a compiled program gets its operands in the order of tuples, whatever relations contain, so that walking them with forward cursors misses nothing.", "quantifier": "all rules, all contents of relations", "why_tests_cant": "A misplaced projection gives an unsorted operand only for some contents.", "anchors": ["core/src/compiler/back/b2r.rs:process_dataflow", "core/src/compiler/back/b2r.rs:no_constant_ground_plan_to_ram_dataflow", "core/src/compiler/back/permutation.rs:order_preserving (50-73)"]}
{"id": "C75", "title": "A compiled program holds what its rules define", "statement": "After compilation, with all auxiliary relations (joins, reordered copies, negated operands) computed stratum by stratum together with the predicates of the program, every predicate holds exactly the facts in the least set that contains the given facts and is closed under its rules, predicates of earlier strata being fixed; every relation that is read exists, in the same stratum or an earlier one, and no two relations share a name.", "quantifier": "all stratified programs within the stated conditions, all facts, all iteration orders of the compiler's sets", "why_tests_cant": "Auxiliary relations are shared between rules and strata and are themselves computed by fixpoint; whether they are complete when needed depends on the whole program.", "anchors": ["core/src/compiler/back/b2r.rs:strata_to_ram_strata (92-167)", "core/src/compiler/back/b2r.rs:stratum_to_ram_stratum (167-210)", "core/src/compiler/ram/ast.rs:source_relations (352-374)"]}
{"id": "C76", "title": "Executing a program computes what it defines", "statement": "When the execution of a compiled program ends, every visible relation holds exactly the facts that the strata of the program define over the facts of the extensional database: in each stratum the least set containing the facts and closed under the rules, negation and aggregation seeing finished strata. This holds with and without incremental maintenance, for every scheduler, and also when correct earlier results are kept.", "quantifier": "all programs with negation, aggregation and foreign predicates that meet the compiler's guarantees, all databases, all schedulers, both modes of execution", "why_tests_cant": "Which relations are inputs, outputs, kept or dropped is decided per stratum from the whole program; any of it may lose or leak facts.", "anchors": ["core/src/runtime/dynamic/incremental.rs:incremental_execute_helper (110-214)", "core/src/runtime/dynamic/incremental.rs:execute_stratum (216-327)", "core/src/runtime/dynamic/incremental.rs:stratum_inputs_outputs (674-724)", "core/src/runtime/dynamic/iteration.rs:build_dynamic_update (288-468)"]}
{"id": "C77", "title": "A run sees all facts given so far", "statement": "After any sequence of additions of facts (accepted or refused), reads of relations and runs (successful or not) on a context, a successful run makes every visible relation, when read, contain exactly the tuples that the program defines over all facts given so far and those of the program; reading relations does not change what is read.", "quantifier": "all histories of calls, all programs and databases, all relations and orders of reading", "why_tests_cant": "the sequence of calls that exposes a stale or lost result is unbounded; tests run a program once", "anchors": ["core/src/runtime/dynamic/incremental.rs: incremental_execute_helper, add_facts, recover", "core/src/runtime/database/extensional/database.rs: populate_program_facts, internalize", "core/src/runtime/database/extensional/relation.rs: internalize", "core/src/runtime/database/intentional/relation.rs: recover", "core/src/integrate/context.rs: add_facts, run, computed_relation", "core/src/integrate/interpret.rs: run"]}
{"id": "C78", "title": "Running again changes nothing", "statement": "Running a program again, without adding facts, succeeds and leaves the same results with the same tags, whatever has been read in between.", "quantifier": "all histories before the first of the two runs, all programs, all tags whose addition is idempotent", "why_tests_cant": "tests compare single runs; the facts of a program are added again at each run, which only shows in the tags", "anchors": ["core/src/runtime/database/extensional/database.rs: populate_program_facts", "core/src/runtime/database/extensional/relation.rs: internalize", "core/src/runtime/dynamic/incremental.rs: incremental_execute_helper"]}
{"id": "C79", "title": "Adding facts is all or nothing", "statement": "A list of facts is accepted if and only if the relation is declared and every fact has its type; when it is refused, the context, with all its results, is as before.", "quantifier": "all contexts, relations, types and lists of facts", "why_tests_cant": "a mix of good and bad facts and the state before the call are unbounded", "anchors": ["core/src/integrate/context.rs: add_facts", "core/src/runtime/dynamic/incremental.rs: add_facts", "core/src/runtime/database/extensional/database.rs: check_tuples_type"]}
{"id": "C80", "title": "Compiled and executed, rules hold what they define", "statement": "When a stratified program of rules is compiled and the result is executed on a database of facts, then, if the execution ends, every visible predicate holds exactly the tuples the rules define: stratum by stratum, the least sets closed under the rules over the facts and the strata before. Plans, orders of joins, temporary relations, permuted copies, tags, and whether results are kept for incremental use, make no difference.", "quantifier": "all programs of rules, fact databases, provenances, schedulers and execution modes", "why_tests_cant": "composes planning, translation, stratification and semi-naive evaluation; each has its own unbounded inputs", "anchors": ["core/src/compiler/back/b2r.rs: to_ram_program, strata_to_ram_strata", "core/src/compiler/back/query_plan.rs", "core/src/runtime/dynamic/incremental.rs: incremental_execute_helper", "core/src/runtime/dynamic/iteration.rs: run"]}
{"id": "C81", "title": "Tags say in which worlds a derived fact holds", "statement": "When a set of recursive rules has been evaluated, a derived tuple's tag is true in a possible world (a choice of which input facts are true) exactly if the tuple can be derived, without tags, from the facts that are true in that world. With boolean tags this is ordinary evaluation; with min-max probabilities the tuples above a threshold are those derivable from facts above it; with proof tags and top-k proofs the probability reported for a tuple is at most, and for k large enough equal to, the probability that it can be derived.", "quantifier": "all programs of one stratum, all input facts with their tags, all worlds, all provenances whose operations are exact in the world, all k", "why_tests_cant": "tags are recombined at each round of an evaluation of unbounded length, and tuples found again must not lose what their tags said before; the number of worlds is exponential", "anchors": ["core/src/runtime/dynamic/iteration.rs: run", "core/src/runtime/dynamic/relation.rs: changed, complete", "core/src/runtime/dynamic/schedulers/lfp.rs: schedule_lfp", "core/src/runtime/provenance/probabilistic/top_k_proofs.rs", "core/src/runtime/provenance/probabilistic/min_max_prob.rs", "core/src/runtime/provenance/discrete/boolean.rs", "core/src/runtime/provenance/discrete/proofs.rs"]}
{"id": "C82", "title": "Executed programs say in which worlds each result holds", "statement": "When a compiled program with negation and aggregations is executed, the tag of a tuple in a result is true in a possible world (a choice of which input facts, and results of foreign predicates, are true) exactly if the tuple is in the model of the program over the facts that are true in that world. So with boolean tags false facts may as well be absent; with min-max probabilities the tuples above a threshold are those derived from facts above it; with top-k proofs and k large enough the probability reported for a tuple is the probability that it can be derived, and for every k and programs without negation it is at most that.", "quantifier": "all stratified programs, with negation and aggregations, all databases with their tags, all worlds, with and without incremental maintenance, all k", "why_tests_cant": "the claim quantifies over exponentially many worlds and over executions of unbounded length in several strata, where each stratum reads the tags of earlier ones", "anchors": ["core/src/runtime/dynamic/incremental.rs: execute", "core/src/runtime/dynamic/dataflow/antijoin.rs", "core/src/runtime/dynamic/dataflow/difference.rs", "core/src/compiler/back/b2r.rs: antijoin_to_ram_dataflow, no_constant_ground_plan_to_ram_dataflow", "core/src/runtime/provenance/probabilistic/top_k_proofs.rs", "core/src/runtime/provenance/discrete/boolean.rs"]}
{"id": "C83", "title": "Programs of rules mean the same in every possible world", "statement": "When a stratified program of rules over facts with tags is compiled and executed, the tag of a tuple of a predicate is true in a possible world exactly if the rules, read as logic, define the tuple over the facts that are true in that world. So the reported probability of a tuple (top-k proofs, k large enough) is the probability that the rules derive it from independently chosen facts; the temporary relations, permutations and subtractions that the compiler makes up do not change it.", "quantifier": "all stratified programs of rules without aggregates that meet the conditions of C75, all databases with their tags, all worlds, all atom orders the planner may find, with and without incremental maintenance", "why_tests_cant": "the claim composes the compiler, the planner and unboundedly long executions and quantifies over exponentially many worlds; that what the compiler subtracts has each tuple once is an invariant of the compiler that no single execution shows", "anchors": ["core/src/compiler/back/b2r.rs: antijoin_to_ram_dataflow, no_constant_ground_plan_to_ram_dataflow", "core/src/compiler/back/query_plan.rs", "core/src/runtime/dynamic/incremental.rs: execute", "core/src/integrate/interpret.rs"]}
{"id": "C84", "title": "Accepted rules derive finitely many facts", "statement": "A rule the compiler accepts is safe: from relations with finitely many facts, and foreign predicates that give finitely many results for given inputs, it derives finitely many facts. (If the head's relation is computed on demand: finitely many for finitely many demanded values.) The check always ends, and a rule whose variables all occur as arguments of atoms, those of negated atoms aside, is accepted.", "quantifier": "all rules (bodies with conjunctions, disjunctions, aggregations, constraints, expressions, casts, function calls), all sets of foreign predicates with their input patterns, all finite databases", "why_tests_cant": "finiteness over infinitely many possible values cannot be observed; the analysis runs to a fixpoint over dependencies of unboundedly many expressions", "anchors": ["core/src/compiler/front/analyzers/boundness/boundness_analysis.rs: BoundnessAnalysis", "core/src/compiler/front/analyzers/boundness/local.rs: LocalBoundnessAnalysisContext, compute_boundness", "core/src/compiler/front/analyzers/boundness/context.rs: RuleContext, compute_boundness", "core/src/compiler/front/analyzers/boundness/dependency.rs: BoundnessDependency"]}
{"id": "C85", "title": "Computing relations on demand does not change results", "statement": "Marking relations as computed on demand does not change what a program computes: every relation that is not on demand has the same facts as without the marks, and an on-demand relation has only facts it has without the mark, and all of those that are asked for.", "quantifier": "all programs (rules with atoms, negated atoms, assignments, constraints, aggregations), all demand patterns, all facts, including initial demands", "why_tests_cant": "equality of the contents of relations of two recursive programs for all facts; the rewriting adds mutually recursive rules", "anchors": ["core/src/compiler/back/optimizations/demand_transform.rs: demand_transform, transform_on_demand_rule, generate_demand_rules, generate_demand_rule, generate_sips_with_max_num_atoms_per_layer, compute_grounded_variables"]}
{"id": "C86", "title": "Type inference ends, and merges types exactly", "statement": "Merging what is known about the type of an expression from two sources gives exactly the types both allow; two sources are in conflict only if no type is allowed by both. Type inference ends on every program, with types or an error, after a number of passes linear in the size of the program.", "quantifier": "all sets of types, all programs (declarations, facts, rules), all types of foreign functions", "why_tests_cant": "termination of a fixpoint loop on all programs; tests that hang are not written for type families that no builtin function uses", "anchors": ["core/src/compiler/front/analyzers/type_inference/type_set.rs: TypeSet, PartialEq, PartialOrd, unify, contains_value_type", "core/src/compiler/front/analyzers/type_inference/type_inference.rs: TypeInference, infer_types", "core/src/compiler/front/analyzers/type_inference/unification.rs: Unification, unify"]}
{"id": "C87", "title": "Accepted programs compute values of the inferred types", "statement": "If type inference accepts a program, every fact it derives has values of the types inferred for its relation, and no expression fails for reasons of type: operators, casts, conditionals and foreign functions get operands of types they support, and each literal is a value of its type.", "quantifier": "all programs (facts, declarations, recursive rules with atoms, negated atoms, constraints, operators, casts, conditionals, calls), all foreign functions and predicates that keep to their types, all derivations", "why_tests_cant": "inference works rule by rule on the whole program at once; values flow through recursive rules without bound", "anchors": ["core/src/compiler/front/analyzers/type_inference/type_inference.rs: infer_types", "core/src/compiler/front/analyzers/type_inference/local.rs: propagate_variable_types, propagate_relation_types, check_type_cast, check_constraint", "core/src/compiler/front/analyzers/type_inference/operator_rules.rs: ADD_TYPING_RULES, COMPARE_TYPING_RULES", "core/src/runtime/env/environment.rs: eval_binary, eval_unary"]}
{"id": "C88", "title": "Declared types are kept", "statement": "The types that a program declares for the columns of a relation are those the relation has; every argument written for the relation in a rule has the declared type, and every literal of a fact becomes a value of the type of its column. An integer literal keeps its value.", "quantifier": "all programs, all declarations, facts and rules, in any order", "why_tests_cant": "inference merges types from all places where a relation occurs, in the order of the program", "anchors": ["core/src/compiler/front/analyzers/type_inference/type_inference.rs: visit of relation type declarations, facts, constant sets and rules", "core/src/compiler/front/analyzers/type_inference/unification.rs: IthArgOfRelation, OfConstant", "core/src/compiler/front/ast/constant.rs: to_value"]}
{"id": "C89", "title": "Standard functions keep their types and give the mathematical result", "statement": "A standard foreign function ($abs, $floor, $pow, $max, $string_concat, ...) called with arguments of its declared types returns a value of its declared type or none, and does not panic. On integers $abs, $sign, $pow, $max and $min give the absolute value, the sign, the power, the greatest and the least of their arguments; $max and $min of floating point numbers do not depend on the order of the arguments.", "quantifier": "all standard functions but those on dates, tensors and entities, all arguments, any number of arguments for variadic functions", "why_tests_cant": "types are declared apart from the code that computes the value; functions are generic in the type and variadic", "anchors": ["core/src/common/foreign_function.rs: ForeignFunctionRegistry::std", "core/src/common/foreign_functions/*.rs: execute"]}
{"id": "C90", "title": "String functions and predicates agree with each other", "statement": "Positions mean the same for all string functions and predicates: $substring returns the characters between two positions, the part before and the part from a position make up the string, $string_index_of gives the first position of a pattern and $substring at that position gives the pattern back, string_find gives every occurrence, string_chars and string_index the characters and positions, $string_length their number. string_split loses nothing but the separators, $string_replace leaves no other change, $format fills the holes in order, $string_trim removes white space at the ends only.", "quantifier": "all strings of Unicode characters, all patterns, all positions", "why_tests_cant": "strings are arbitrary; some functions count bytes and others characters, which agree on the ASCII strings of tests", "anchors": ["core/src/common/foreign_functions/string_*.rs, substring.rs, format.rs: execute", "core/src/common/foreign_predicates/string_chars.rs, string_index.rs, string_find.rs, string_split.rs: evaluate"]}
{"id": "C91", "title": "Soft comparisons give consistent probabilities", "statement": "soft_gt and soft_lt give a probability between 0 and 1 that grows with the difference, one half for equal numbers; they are complementary. soft_eq gives a probability, one exactly for equal numbers and arbitrarily small for numbers far apart, the same for exchanged arguments; soft_neq gives its complement. soft_eq is the normalised derivative of the sigmoid function. Of tensors in Python, soft_eq and soft_neq are probabilities, too.", "quantifier": "all pairs of real numbers and of vectors, all four sigmoid functions, all non-negative scaling parameters", "why_tests_cant": "real numbers", "anchors": ["core/src/common/foreign_predicates/soft_cmp.rs: SigmoidFunction::eval, eval_deriv", "core/src/common/foreign_predicates/soft_eq.rs, soft_neq.rs, soft_gt.rs, soft_lt.rs", "core/src/common/foreign_predicate.rs: ForeignPredicateRegistry::std", "etc/scallopy/scallopy/stdlib.py: soft_eq_tensor, soft_neq_tensor"]}
{"id": "C92", "title": "An entity is the term it was made from", "statement": "An entity made from a string, by new in a rule or as a constant of the program, taken apart with the relations of its constructors, is the term that was written, with its arguments at their declared types. The same term is the same entity, in whichever way it is made; different terms are different entities. A malformed string adds nothing; of the facts of entities none is lost or repeated on the way from where they are made to the relations.", "quantifier": "all algebraic data types, all terms of any depth, all orders of making entities and of taking facts out of the store, all hash functions with 64 bits", "why_tests_cant": "terms are of unbounded depth, and the identity is a hash", "anchors": ["core/src/common/entity.rs: encode_entity", "core/src/common/adt_variant_registry.rs: ADTVariantRegistry::parse, parse_entity", "core/src/compiler/front/ast/entity.rs: to_facts_with_constant_variables", "core/src/runtime/env/environment.rs: eval (NewExpr)", "core/src/runtime/env/dynamic_entity_storage.rs: DynamicEntityStorage"]}
{"id": "C93", "title": "A constant stands for its value wherever it is used", "statement": "A name declared by const or as a member of an enumeration is replaced, where it is used, by the value of its declaration, with the constants that the declaration uses replaced in turn, and has the declared type. The members of an enumeration get different, increasing numbers: those given, or one more than the one before. A program is refused exactly if a name is declared twice, is declared by something that is not constant, is used in a fact without a declaration, or is bound by a variable, or if numbers given to members do not increase. Whether a name is a constant does not depend on the order of items.", "quantifier": "all programs: any number and order of declarations, any nesting of entities, any numbers of members", "why_tests_cant": "declarations refer to each other to any depth, and uses and declarations come in any order", "anchors": ["core/src/compiler/front/analyzers/constant_decl.rs: ConstantDeclAnalysis, process_enum_type_decl", "core/src/compiler/front/transformations/const_var_to_const.rs: TransformConstVarToConst", "core/src/compiler/front/ast/entity.rs: to_facts_with_constant_variables"]}
{"id": "C94", "title": "Compiling is all or nothing and loads each imported file once, first", "statement": "Adding a program to a context that fails leaves the context exactly as it was, also if it fails after some of its imports have been loaded; adding one in a context never changes a clone of the context. Compiling ends, also if files import each other. A file that is imported is loaded once, before the files that import it; files that import each other in a cycle are refused. After a compilation that succeeds, the program that is run is that of all programs added so far, for the outputs asked for.", "quantifier": "all languages (parsers, analyses, transformations), all programs and file systems with finitely many files, all sharing of analyses between clones, all histories of calls", "why_tests_cant": "import graphs and histories of calls are unbounded, and a failure may come after any number of loaded files", "anchors": ["core/src/compiler/front/compile.rs: compile_source_with_parser_and_annotator, process_imports, add_import", "core/src/utils/copy_on_write.rs: CopyOnWrite", "core/src/integrate/context.rs: add_program, import_file, compile_with_output_relations", "etc/scallopy/src/context.rs: jit_compile"]}
{"id": "C95", "title": "Top-bottom-k tags bound what they stand for from the right side", "statement": "With the top-bottom-k-clauses provenance, a tag never has more than k clauses; the negation of a tag is exact; a tag that was not cut off is true in exactly the worlds in which the combination of facts it stands for is true; a tag with a disjunction of conjunctions that was cut off is true in fewer worlds, one with a conjunction of disjunctions in more; of the clauses the most probable ones (or least probable ones) are kept; no operation panics or runs forever; the probability reported is the exact probability of the tag.", "quantifier": "all histories of tagging, adding, multiplying and negating, all k, probabilities, exclusions and orders of a priority queue among equal elements", "why_tests_cant": "the histories and the sizes of formulas are unbounded, and truth is over all possible worlds", "anchors": ["core/src/runtime/provenance/common/cnf_dnf_context.rs: CNFDNFContextTrait", "core/src/runtime/provenance/common/cnf_dnf_formula.rs: CNFDNFFormula", "core/src/runtime/provenance/probabilistic/top_bottom_k_clauses.rs: TopBottomKClausesProvenance", "core/src/runtime/provenance/differentiable/diff_top_bottom_k_clauses.rs: DiffTopBottomKClausesProvenance"]}
{"id": "C96", "title": "A tagged rule applies with its probability", "statement": "A rule t :: head :- body derives the tuples of its head from the tuples of its body with one independent event of probability t for each: a derived tuple is reported with the probability that it follows from the facts and the rules whose events are true, whatever other rules there are and in whatever order the atoms of the body are joined. The tag is an expression over the variables of the body, of a type that the compiler accepts only if it can be evaluated.", "quantifier": "all strata with tagged and other rules, recursive or not, all provenances and facts, all types of tags, all orders of joins", "why_tests_cant": "the rule is compiled into a foreign predicate that is evaluated in a fixpoint loop of unbounded length with side effects on the provenance", "anchors": ["core/src/compiler/front/transformations/tagged_rule.rs: TransformTaggedRule", "core/src/compiler/front/analyzers/tagged_rule.rs: TaggedRuleAnalysis, TagPredicate", "core/src/runtime/dynamic/dataflow/foreign_predicate/constraint.rs: ForeignPredicateConstraintBatch", "core/src/compiler/back/query_plan/context.rs: try_apply_foreign_predicate_atom"]}
{"id": "C97", "title": "A fact holds with the probability its tag says", "statement": "A fact of a program or an input is registered with the probability that its tag says (no tag or true: certain; false or 0: impossible; a number: this probability), several facts hold together with the product of their probabilities, and cloning a context with another provenance keeps this.", "quantifier": "all tags, all types of input tags and conversions between them, all lists of facts and all sets of positions in them, all written tags and arguments", "why_tests_cant": "a test uses numbers between 0 and 1 with one provenance; tags are read by nine types of input tags with ten forms each, and converted between all of them", "anchors": ["core/src/common/input_tag.rs: DynamicInputTag, with_exclusivity", "core/src/runtime/provenance/common/input_tags/: from_dynamic_input_tag, from_input_tag", "core/src/runtime/database/extensional/relation.rs: internalize, clone_with_new_provenance", "core/src/compiler/front/f2b/f2b.rs: to_constant_dyn_input_tag", "core/src/compiler/front/transformations/non_constant_fact_to_rule.rs", "core/src/compiler/front/analyzers/tagged_rule.rs: register_predicates"]}
{"id": "C98", "title": "Exactly the alternatives of one choice exclude each other", "statement": "Two facts never hold together if they are alternatives of one choice (a disjunctive fact, a choice that a rule makes for one solution, or a call that adds exclusive facts), and in all other cases they do not exclude each other.", "quantifier": "all programs of plain facts and choices, all solutions, alternatives and iterations, all sequences of calls", "why_tests_cant": "the numbers of exclusions come from three counters and a map that lives as long as an iteration; a test with one choice cannot see that two of them meet", "anchors": ["core/src/compiler/back/b2r.rs: exclusive_fact_to_ram_fact", "core/src/runtime/dynamic/dataflow/dynamic_exclusion.rs: next_elem", "core/src/runtime/env/environment.rs: allocate_new_exclusion_id", "core/src/runtime/database/extensional/database.rs: add_exclusive_probabilistic_facts", "core/src/runtime/provenance/common/disjunction.rs"]}
{"id": "C99", "title": "Facts in a CSV file are the facts of the relation", "statement": "A relation that is loaded from a CSV file has exactly the facts that the rows of the file say under the given options (columns by position, by name, or keys with one fact for each other column; probabilities in the first column), a file that says something else is refused, relations do not influence each other, loading twice changes nothing, and a relation written to a file and loaded again is the same.", "quantifier": "all files (given by their records), headers, options, column types and relations of a program, all histories of symbol registrations", "why_tests_cant": "a test loads one well-formed file into one relation; the registry of files, the shared tags and the text of values only show with several relations, several facts per row and unusual values", "anchors": ["core/src/runtime/database/extensional/relation.rs: load_from_file, load_from_csv, load_from_csv_raw, load_from_csv_with_fields, load_from_csv_with_keys, load_from_csv_with_keys_and_fields", "core/src/runtime/database/io/input_file_content.rs: CSVFileContent, from_file", "core/src/runtime/database/io/input_file_registry.rs: InputFileRegistry::load", "core/src/runtime/database/io/output_file.rs: store_csv_file", "core/src/common/value_type.rs: ValueType::parse", "core/src/common/value.rs: Display for Value", "core/src/common/input_file.rs: csv_with_options", "core/src/common/symbol_registry.rs: SymbolRegistry"]}
{"id": "C100", "title": "A compiled program computes what the interpreter computes", "statement": "A program compiled to Rust ends with the same relations, tuples and tags, as the interpreter run on the same facts and rules: the tuples are exactly those the facts and rules define, in order and without repetition, each tag says in which worlds its tuple can be derived, and it stops whenever there are finitely many tuples.", "quantifier": "all strata (facts in any number of batches, earlier results, rules of relational operators with stratified negation), all provenances, all schedulers of the interpreter, all numbers of turns", "why_tests_cant": "the two runtimes are separate code and tests compare them on a few programs with one tag type; merging, the order of batches and early discarding only differ for some shapes of batches", "anchors": ["core/src/runtime/statics/collection.rs: StaticCollection::merge", "core/src/runtime/statics/relation.rs: StaticRelation::insert, changed, complete", "core/src/runtime/statics/iteration.rs: StaticIteration::changed, insert_dataflow, complete", "core/src/runtime/statics/dataflow/join.rs: JoinIterator", "core/src/runtime/statics/dataflow/antijoin.rs: AntijoinIterator", "core/src/runtime/statics/dataflow/find.rs: FindIterator", "core/src/compiler/ram/ram2rs.rs: Stratum::to_rs_stratum, Dataflow::to_rs_dataflow"]}
{"id": "C101", "title": "string_join joins exactly the true strings, in order", "statement": "In every world exactly one result of string_join is true: the strings of the facts true in that world, in order, with the separator between them and nowhere else; with arguments, of the facts with the least arguments chosen per argument; with `!` the strings of all facts, and the result always holds.", "quantifier": "all batches of strings with any number of arguments, all separators, all provenances with exact or sound tags, all worlds", "why_tests_cant": "tests join a few strings with tags that are all true; which strings are in the result depends on every combination of true facts and on which tags a provenance calls possible", "anchors": ["core/src/common/foreign_aggregates/string_join.rs: StringJoinAggregator", "core/src/common/foreign_aggregates/min_max.rs: argument choices", "core/src/runtime/provenance/provenance.rs: Provenance::negate"]}
{"id": "C102", "title": "Weighted sums and averages", "statement": "In every world exactly one result of weighted_sum (weighted_avg) is true: the sum (average) of the numbers of the true facts, weighted with the weights of their tags; an average lies between the least and the greatest number; with `!` all facts count; with independent probabilistic facts weighted_sum! is the expected sum, and the mean of the results of weighted_sum is too.", "quantifier": "all batches of numbers with any number of arguments, all provenances with exact tags, all weight functions, all worlds", "why_tests_cant": "tests check a handful of weights; the expectation is a statement about all subsets of the facts, and the average of a world without facts only shows in some worlds", "anchors": ["core/src/common/foreign_aggregates/weighted_sum_avg.rs: WeightedSumAvgAggregator", "core/src/runtime/provenance/provenance.rs: Provenance::weight"]}
{"id": "C103", "title": "Normalization and disjunctions", "statement": "normalize and softmax keep the facts and turn their weights into probabilities that add up to 1, in proportion to the weights (their exponentials), of facts that exclude each other and hold only where the old facts hold; disjunct makes exactly the facts of a group exclude each other and changes nothing else.", "quantifier": "all batches, all weights, all histories of registered facts and exclusions, all provenances on probabilities or proofs", "why_tests_cant": "tests normalize two or three facts once; a collision with an exclusion or fact number used earlier, or a lost dependence on the old facts, depends on the history", "anchors": ["core/src/common/foreign_aggregates/normalize.rs: NormalizeAggregator", "core/src/common/foreign_aggregates/disjunct.rs: DisjunctAggregator", "core/src/runtime/provenance/probabilistic/top_k_proofs.rs: tagging_fn"]}
{"id": "C104", "title": "Samplers and the names of aggregates", "statement": "A sampler returns k different facts of the batch with their tags (all if there are at most k), the categorical one never a fact of weight 0; every name of an aggregate finds the aggregate of that name.", "quantifier": "all batches, all weights, all outcomes of the random choices, all names", "why_tests_cant": "the outcome is random, so a run shows one of many; names are looked up at run time", "anchors": ["core/src/common/foreign_aggregates/uniform.rs: UniformSampler", "core/src/common/foreign_aggregates/categorical.rs: CategoricalAggregate::name, CategoricalSampler", "core/src/common/foreign_aggregate.rs: AggregateRegistry::std, register"]}
{"id": "C105", "title": "A query returns exactly its answers", "statement": "The relation printed for the query p(args) holds exactly the facts of p whose components are values of the arguments as they are written (constants, repeated variables, wildcards and composed expressions), whatever other queries the program has; a program prints its queries and nothing else, or all visible relations if it has none.", "quantifier": "all programs, all lists of queries, all arguments, all facts", "why_tests_cant": "the rule made for a query has fresh variables and equations and a name made from the text of the query; collisions of names depend on all the queries together", "anchors": ["core/src/compiler/front/transformations/atomic_query.rs: TransformAtomicQuery", "core/src/compiler/front/ast/query.rs: create_relation_name", "core/src/compiler/front/pretty.rs: Display for Atom, Expr, Constant", "core/src/compiler/front/f2b/f2b.rs: outputs"]}
{"id": "C106", "title": "Literals denote what is written", "statement": "A string literal denotes its characters with every escape read as usual, every string, character and 64-bit number can be written as a literal, and a literal denotes one value.", "quantifier": "all texts of literals, all strings, characters and numbers", "why_tests_cant": "there are infinitely many combinations of backslashes and characters; tests use single escapes", "anchors": ["core/src/compiler/front/grammar.lalrpop: StringLiteral, CharLiteral, SymbolLiteral, Int", "core/src/compiler/front/analyzers/character_literal.rs: CharacterLiteralAnalysis"]}
{"id": "C107", "title": "Imports are compiled once and in order", "statement": "Compiling a source ends whatever its imports are; it succeeds exactly if everything it imports can be read, is accepted and is not imported before; the items of a file come after those of the files it imports; cycles are refused; failed compilations leave no trace; a file is not compiled twice and files may share imports.", "quantifier": "all graphs of files, all contexts, all histories of compilations", "why_tests_cant": "cycles, shared files and histories are unbounded", "anchors": ["core/src/compiler/front/compile.rs: compile_source_with_parser_and_annotator, process_imports, add_import, is_imported", "core/src/compiler/front/cycle_import.rs: CycleImportError", "core/src/compiler/front/source/source.rs: absolute_file_path"]}
{"id": "C108", "title": "Attributes are applied where they are written", "statement": "The demand pattern, scheduler, storage, goal mark and hidden mark of a relation are exactly those written at its declarations, wherever they are written (types, facts, sets, rules with one or several head relations, aggregate rules, bound/free arguments); contradictory attributes are refused.", "quantifier": "all programs, all attributes, all orders of declarations", "why_tests_cant": "the result depends on the kinds and the order of all declarations of the program, and on transformations that move or drop attributes", "anchors": ["core/src/compiler/front/analyzers/demand_attr.rs: DemandAttributeAnalysis", "core/src/compiler/front/analyzers/scheduler_attr.rs: SchedulerAttributeAnalysis", "core/src/compiler/front/analyzers/storage_attr.rs: StorageAttributeAnalysis", "core/src/compiler/front/analyzers/goal_relation.rs: GoalRelationAnalysis", "core/src/compiler/front/analyzers/hidden_relation.rs: HiddenRelationAnalysis", "core/src/compiler/front/transformations/desugar_arg_type_anno.rs: DesugarArgTypeAdornment", "core/src/compiler/front/f2b/attr.rs: back_relation_attributes"]}
{"id": "C109", "title": "Files named by attributes are used as written", "statement": "@file at a type declaration makes every relation it declares be read from that csv file, with the delimiter, header, probability column, keys and fields as written and fixed defaults otherwise; @file at a query sends its results to that file. An attribute with a path or an option that is not as required is refused, with an error.", "quantifier": "all programs, all paths, all attributes with all combinations of options, all orders of declarations", "why_tests_cant": "all paths and all combinations of options, right and wrong, at all kinds of declarations; a lost error is not seen by a test of what works", "anchors": ["core/src/compiler/front/analyzers/input_files.rs: InputFilesAnalysis, process_attr", "core/src/compiler/front/analyzers/output_files.rs: OutputFilesAnalysis, process_attribute", "core/src/compiler/front/analysis.rs: dump_errors", "core/src/common/input_file.rs: InputFile::csv_with_options", "core/src/common/output_option.rs: OutputCSVFile", "core/src/compiler/front/f2b/f2b.rs: collect_back_outputs"]}
{"id": "C110", "title": "Compiled programs aggregate as the interpreter does", "statement": "An aggregation in a program compiled to Rust gives the facts, in the order and with the tags, that the interpreter gives for the same aggregation, whether over a whole relation, by groups of its own keys or by groups of another relation; a program with an aggregate that cannot be compiled is refused.", "quantifier": "all aggregates, uses of them, groupings and relations", "why_tests_cant": "which settings an aggregator gets and how groups are formed depends on all keys, marks and arguments; the generated code is tested for few of them", "anchors": ["core/src/compiler/ram/ram2rs.rs (Dataflow::to_rs_dataflow)", "core/src/runtime/statics/aggregator/*.rs", "core/src/runtime/statics/dataflow/aggregation/*.rs", "core/src/common/foreign_aggregates/*.rs (instantiate)"]}
{"id": "C111", "title": "Compiled programs compute expressions as the interpreter does", "statement": "An expression in a rule of a program compiled to Rust gives the value the interpreter gives for it on the same facts, whatever the build; an expression that cannot be compiled is refused.", "quantifier": "all expressions, tuples and both kinds of builds (with and without overflow checks)", "why_tests_cant": "overflow, undefined results, evaluation order and casts differ only on particular values of particular types", "anchors": ["core/src/compiler/ram/ram2rs.rs (expr_to_rs_expr, binary_op_to_rs, value_to_rs_value)", "core/src/runtime/env/environment.rs (eval, eval_binary, eval_unary)"]}
{"id": "C112", "title": "A text is read in one way, by the usual rules", "statement": "An expression or a formula is read in at most one way. Products bind more strongly than sums, sums than comparisons, comparisons than logical operators; operators of one kind group to the left, comparisons do not chain. `and` binds more strongly than `or`, `or` than `=>`; commas mean `and`. Every expression can be written, and what is shown for an expression is read back as the same expression.", "quantifier": "all sequences of tokens, all expressions, all chains of operators of any length with any operands", "why_tests_cant": "the texts are unbounded and a wrong grouping is still a well-formed expression", "anchors": ["core/src/compiler/front/grammar.lalrpop (Expr, AndOrExpr, ComparisonExpr, AddSubExpr, MulDivModExpr, UnaryExpr, UnitExpr, ComplexExpr, Formula, Conjunction, Disjunction, Implies, CommaConjunction)", "core/src/compiler/front/pretty.rs (Display for Expr)"]}
{"id": "C113", "title": "The text of a program is split into the tokens that were written", "statement": "Every text is cut in one way, from left to right, into the longest possible pieces. Tokens written with blanks or line ends between them (and nothing beside brackets, commas and semicolons) are read back as the same tokens; blanks and comments change nothing; whether blanks stand between tokens does not matter otherwise. Every expression can be written as a text that is read back as that expression. A specialized name is read as the name and the arguments that were written, with any white space between them.", "quantifier": "all texts, all programs in any layout, all comments, all expressions", "why_tests_cant": "texts and layouts are unbounded; a wrong split depends on what stands arbitrarily far to the right", "anchors": ["core/src/compiler/front/grammar.lalrpop (match block, 7-133)", "core/src/compiler/front/parser.rs"]}
{"id": "C114", "title": "The location in an error message is the place in the program", "statement": "The row and column of a place in a program are the number of lines before it and the length of what stands before it in its line; the text shown for a row is that line; different places have different locations, in the order of the text. A report can be made of every place, and it marks exactly the reported part of a line. In a program inside a Rust macro the rows are the lines of the Rust file. The same holds for lines of the prompt and for syntax errors.", "quantifier": "all texts, all offsets and all pairs of offsets", "why_tests_cant": "texts and offsets are unbounded; the boundaries (line ends, the last line, the end of the text, characters of several bytes) are easily missed", "anchors": ["core/src/compiler/front/source/utils.rs: collect_line_offset_length", "core/src/compiler/front/source/string.rs: StringSource", "core/src/compiler/front/source/file.rs: FileSource", "core/src/compiler/front/source/rust_macro.rs: RustMacroSource", "core/src/compiler/front/annotation.rs: LocationSpanAnnotator::row_col_of_offset", "core/src/compiler/front/ast/utils.rs: NodeLocation::report", "core/src/compiler/front/parser.rs (ParserError::report)", "core/src/compiler/front/source/repl.rs (ReplSource)"]}
{"id": "C115", "title": "A tensor given to a relation means the facts of its input mapping", "statement": "A mapping made of nested lists, or of a dictionary of the dimensions, gives to each index of the tensor the tuple written there. A tensor means one fact for each of its indices, in order, with the probability at the index and the tuple of the index; facts below the threshold are left out; with a bound, the facts are those of greatest probability, in the whole tensor or along a dimension, or sampled ones. Facts belong to the same exclusive choice exactly if the settings say so: all of them, or those that differ in the given dimension only. Facts of different items of a batch and of different relations are not in the same choice.", "quantifier": "all nested lists and dictionaries, all tensors of all shapes, all settings, all results torch may give for best and sampled elements", "why_tests_cant": "shapes, numbers of dimensions and contents are unbounded; wrong strides and wrong transpositions show only for particular shapes", "anchors": ["etc/scallopy/scallopy/input_mapping.py (InputMapping)", "etc/scallopy/scallopy/forward.py (_process_input_facts)", "etc/scallopy/scallopy/utils/counter.py"]}
{"id": "C116", "title": "Facts given as a list keep their probabilities and disjunctions", "statement": "Facts given to a relation as a list with disjunctions are passed on in order with their tuples and probabilities, and two of them are in the same exclusive choice exactly if they are in the same disjunction. With a bound on the number of facts, as many as the bound says are passed on, from the most probable on, none less probable than one left out, and the disjunctions of the remaining facts are kept.", "quantifier": "all lists of facts, all disjunctions, all bounds", "why_tests_cant": "lists, disjunctions and ties between probabilities are unbounded; the renumbering matters only for particular orders", "anchors": ["etc/scallopy/scallopy/context.py (_process_disjunctive_elements)", "etc/scallopy/scallopy/forward.py (_process_input_facts)", "etc/scallopy/src/provenance.rs (process_py_tag)"]}
{"id": "C117", "title": "Forward functions return the right probabilities and pass back the right gradients", "statement": "A forward function returns, under the name of each output relation and for each item of the batch, the probability of each tuple of the output mapping in what was computed for this relation, zero if it was not found; without a mapping, all tuples found for any item, once each, with their probabilities. The gradient passed back to each input fact of an item is the sum over the outputs of their gradients times their derivatives by this fact, with dense and with sparse matrices.", "quantifier": "all batches, output relations, mappings, computed collections, derivatives and gradients", "why_tests_cant": "batches, relations and mappings are unbounded; a wrong order of relations shows only when names and results are compared for particular calls", "anchors": ["etc/scallopy/scallopy/forward.py (_call_with_dynamic_ctx, _process_output, _process_one_output, _batched_prob, _diff_proofs_batched_proxy_output)", "etc/scallopy/scallopy/utils/backward_proxy.py (BackwardProxy)"]}
{"id": "C118", "title": "A restored or copied context is the context it was made from", "statement": "A context that is restored from its pickled state has the same fields and the same program: the same declarations, rules and facts in the same order, up to the numbers of choices; and the same settings. A copy has the program of the context, with the provenance, k and other values that were given, and says so; copies can be copied and restored. In training the k for training is used, otherwise that for testing, and that of the context if there is none.", "quantifier": "all contexts, sequences of calls of their methods, also ones that raised exceptions, and arguments of copies", "why_tests_cant": "the sequences of calls are unbounded; what is lost shows only when a restored context is used further", "anchors": ["etc/scallopy/scallopy/context.py (ScallopContext.__init__, __getstate__, __setstate__, clone, add_facts, add_relation, set_non_probabilistic, set_input_mapping, _refresh_training_eval_state)", "etc/scallopy/scallopy/utils/history.py (record_history, HistoryAction)"]}
{"id": "C119", "title": "Monitors only observe", "statement": "Running a program and reading its relations with monitors gives the same results as without: the same relations, facts and tags, the same errors. A monitor is shown every iteration of each stratum, in order, and why the loop of the stratum stopped; and each fact of a relation that is read, with its tag.", "quantifier": "all programs, facts, provenances, runtime settings and histories of runs, with and without incremental maintenance", "why_tests_cant": "the two versions of execution are separate code; they differ only for particular declarations, entities and empty relations", "anchors": ["core/src/runtime/dynamic/incremental.rs (execute_stratum_with_monitor, incremental_execute_with_monitor_helper, recover_with_monitor)", "core/src/runtime/dynamic/iteration.rs (run_with_monitor, need_to_iterate_with_monitor)", "core/src/runtime/database/intentional/relation.rs (recover_with_monitor)", "core/src/runtime/monitor/dynamic_monitors.rs (DynamicMonitors)", "core/src/integrate/interpret.rs (run_with_monitor)"]}
{"id": "C120", "title": "Proofs that are dumped can be read", "statement": "After a program has been run and relations have been read with the monitor dump-proofs, the file of each relation that was read has all its facts, each with its probability and its proofs, and the files of relations with given facts say which facts the variables in the proofs stand for. The files are those of this run.", "quantifier": "all sequences of relations with given facts and of relations that are read, with any facts, tags and probabilities, and any files of earlier runs", "why_tests_cant": "depends on which relations have given facts and on the order in which relations are read", "anchors": ["core/src/runtime/monitor/dump_proofs.rs (DumpProofsMonitor, record_tag, record_recover, dump_relation)", "core/src/runtime/provenance/common/dnf_formula.rs (get_singleton_id)"]}
{"id": "C121", "title": "Declarations of types and constructors", "statement": "A program is accepted only if every type, constructor and relation it declares is declared once, in it and in all programs compiled before, and every type that it uses is declared. Then a synonym has the value type of what it stands for, a data type that of entities, and relations and constructors have the value types they are declared with. Compiling declarations in two parts, one after the other, is the same as compiling them at once.", "quantifier": "all lists of declarations of synonyms, enumerations, data types and relations, all that was declared before, and all orders in which constructors are walked", "why_tests_cant": "constructors are kept in a hash map, and which types are known depends on the order of declarations and on the history of the context", "anchors": ["core/src/compiler/front/analyzers/algebraic_data_type.rs (AlgebraicDataTypeAnalysis)", "core/src/compiler/front/transformations/adt_to_relation.rs (TransformAlgebraicDataType)", "core/src/compiler/front/analyzers/type_inference/type_inference.rs (check_and_add_custom_type, check_and_add_relation_type, find_value_type)", "core/src/compiler/front/compile.rs (compile_source)"]}
{"id": "C122", "title": "Warnings about relations nothing computes, and wildcards", "statement": "After any history of compilations and registrations, compiling a source warns about a relation exactly if something that was accepted, or the source, uses it and nothing computes, declares or provides it; each relation is named once, at a place where it is used. A source that is rejected leaves no trace in later warnings, and a relation that is computed is never warned about again. A wildcard is rejected where a value is needed.", "quantifier": "all histories of sources, accepted or rejected, with any imports, of registered predicates, and all rules", "why_tests_cant": "what is used and what is computed accumulate over the history of a context, and each import is compiled on its own before the file that imports it", "anchors": ["core/src/compiler/front/analyzers/head_relation.rs (HeadRelationAnalysis)", "core/src/compiler/front/compile.rs (compile_source_with_parser_and_annotator, process_imports, register_foreign_predicate)", "core/src/compiler/front/transformations/atomic_query.rs (TransformAtomicQuery)", "core/src/compiler/front/analyzers/invalid_wildcard.rs (InvalidWildcardAnalyzer)"]}
{"id": "C123", "title": "A program in a Rust macro is the program that was written", "statement": "The text that is compiled for a program written in the macro scallop! has the tokens that were written, all of them and in order, with nothing but spaces between them, each on the line and at the column where it was written; tokens that are written apart stay apart.", "quantifier": "all sequences of tokens and nested groups, at all places", "why_tests_cant": "the text is made again from the places of tokens, so it depends on the layout of the whole program", "anchors": ["core/src/compiler/front/source/rust_macro.rs (token_stream_to_src_lines, populate_str_tokens)"]}
{"id": "C124", "title": "A forall is over an implication or refused", "statement": "A program with a forall over anything else than an implication is refused with a message that says so and where, at whatever depth it is written; every forall over an implication is compiled, in all the forms in which it can be written (quantifier, aggregation with a result, rule of one aggregation).", "quantifier": "all rule bodies, of any depth and shape", "why_tests_cant": "the check runs before the transformations that replace quantifiers, and nested formulas are moved by them, so it must hold for all trees", "anchors": ["core/src/compiler/front/analyzers/aggregation.rs (AggregationAnalysis)", "core/src/compiler/front/transformations/forall_to_not_exists.rs (TransformForall)", "core/src/compiler/front/transformations/desugar_forall_exists.rs (DesugarForallExists)", "core/src/compiler/front/transformations/desugar_reduce_rule.rs (DesugarReduceRule)", "core/src/compiler/front/analyzers/type_inference/unification.rs (Unification::Aggregate)"]}
{"id": "C125", "title": "Constructors in arguments match entities", "statement": "An atom with constructors among its arguments, nested to any depth, is true exactly for the facts whose values are entities made by these constructors from matching parts; in the head of a rule such an atom derives facts about exactly these entities. This holds wherever atoms can be written.", "quantifier": "all atoms with patterns of any depth and number, all facts, all values of the variables", "why_tests_cant": "the new variables must stay apart for all nestings and all positions of patterns", "anchors": ["core/src/compiler/front/transformations/desugar_destruct.rs (DesugarDestruct)", "core/src/compiler/front/f2b/flatten_expr.rs (neg_atom_to_back_literals, get_loc_term)", "core/src/compiler/front/transformations/conjunctive_head.rs (TransformConjunctiveHead)", "core/src/compiler/front/transformations/non_constant_fact_to_rule.rs (TransformNonConstantFactToRule)"]}

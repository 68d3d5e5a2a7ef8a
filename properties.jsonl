{"id": "C01", "title": "Full-contraction Wick theorem is exact", "statement": "The sum of fully contracted terms that the Wick engine produces for a product of normal-ordered operators equals the vacuum expectation value of that product in every algebra whose quasiparticle creation/annihilation parts obey canonical (anti)commutation relations.", "quantifier": "every finite sequence of normal operators of every length, every contraction table, fermionic and bosonic statistics, every algebra satisfying the relations", "why_tests_cant": "Tests can compare only finitely many operator strings with hand-derived results; the number of terms grows factorially and the claim is about every string.", "anchors": ["SeQuant/core/wick.hpp: WickTheorem::recursive_nontensor_wick, can_contract, contract"]}
{"id": "C02", "title": "Partial-contraction Wick theorem is an operator identity", "statement": "With full contractions switched off, the produced sum of (sign x contractions x remaining normal-ordered operator) equals the original operator product, with every contraction set produced exactly once.", "quantifier": "every finite sequence of normal operators and every algebra with canonical (anti)commutation relations", "why_tests_cant": "Requires equality of operators in an arbitrary algebra for unboundedly many inputs.", "anchors": ["SeQuant/core/wick.hpp: WickTheorem::recursive_nontensor_wick, compute_nontensor_wick", "SeQuant/core/op.hpp: normalize"]}
{"id": "C03", "title": "Normal ordering phase is the permutation sign", "statement": "Fusing a sequence of normal operators into one normal operator returns a phase such that phase x (fused operator) equals the normal-ordered product of the input, i.e. the phase is the sign of the reordering.", "quantifier": "every sequence of normal operators and every list of target partner indices", "why_tests_cant": "The phase depends on all lengths and positions; tests sample only low ranks.", "anchors": ["SeQuant/core/op.hpp: normalize"]}
{"id": "C04", "title": "Adjoint of normal operators and expressions", "statement": "Taking the adjoint twice returns the original object and the adjoint of a product denotes the reversed product of adjoints.", "quantifier": "every normal operator and every expression tree", "why_tests_cant": "Universal algebraic law over an unbounded recursive datatype.", "anchors": ["SeQuant/core/op.hpp: Operator::adjoint, NormalOperator::adjoint", "SeQuant/core/expressions/expr.cpp: Product::adjoint, Sum::adjoint"]}
{"id": "C05", "title": "Operators reported as commuting do commute", "statement": "Whenever commutes_with reports that two operator factors commute, exchanging them leaves the value of a product unchanged, and the report is symmetric.", "quantifier": "every pair of normal operators", "why_tests_cant": "Soundness of a syntactic criterion against all algebraic interpretations.", "anchors": ["SeQuant/core/op.hpp: NormalOperator::commutes_with_atom", "SeQuant/core/expressions/expr.cpp: Product::canonicalize_impl"]}
{"id": "C06", "title": "Sorting factors preserves the product and terminates", "statement": "bubble_sort terminates, returns a permutation of its input without adjacent inversions, exchanges only pairs its comparator declares inverted, and counts swaps with the parity of the permutation it performs.", "quantifier": "every finite sequence and every comparator (asymmetry is the only assumption)", "why_tests_cant": "Termination and order-independence for arbitrary, possibly non-transitive comparators cannot be sampled.", "anchors": ["SeQuant/core/algorithm.hpp: bubble_sort", "SeQuant/core/utility/swap.hpp"]}
{"id": "C07", "title": "next_permutation_parity enumerates all permutations with correct parity", "statement": "Repeated calls starting from the sorted sequence visit every permutation exactly once in lexicographic order, and the parity flag equals the parity of the permutation reached.", "quantifier": "every sequence length", "why_tests_cant": "Exhaustive enumeration is possible only for small lengths.", "anchors": ["SeQuant/core/algorithm.hpp: next_permutation_parity"]}
{"id": "C08", "title": "permutation_parity returns the sign of a permutation", "statement": "permutation_parity(p) is +1 for even and -1 for odd permutations and leaves p restored.", "quantifier": "every permutation of every length", "why_tests_cant": "Universally quantified over permutations.", "anchors": ["SeQuant/core/utility/permutation.hpp: permutation_parity"]}
{"id": "C09", "title": "count_cycles counts cycles", "statement": "count_cycles returns the number of cycles of the permutation that maps one sequence onto another.", "quantifier": "every pair of duplicate-free sequences with equal element sets", "why_tests_cant": "Universal over permutations; spin-tracing prefactors 2^cycles rely on it.", "anchors": ["SeQuant/core/utility/permutation.hpp: count_cycles"]}
{"id": "C10", "title": "Bipartitions and subsets are complete and duplicate free", "statement": "Enumerating bipartitions of a bit mask yields each split (S, complement) exactly once; enumerating subsets yields each submask exactly once.", "quantifier": "every bit mask", "why_tests_cant": "The optimizer's optimality rests on completeness for every mask up to 2^n values.", "anchors": ["SeQuant/core/algorithm.hpp: bits::bipartitions_unordered, bits::bipartitions_ordered, bits::subsets"]}
{"id": "C11", "title": "expand distributes without changing the value", "statement": "expand returns an expression with the same value as its input in every (noncommutative) algebra and with no sum below a product.", "quantifier": "every expression tree and every interpretation of its atoms in an algebra over the scalars", "why_tests_cant": "Trees and algebras are unbounded.", "anchors": ["SeQuant/core/expressions/expr_algorithms.cpp: ExpandVisitor, expand"]}
{"id": "C12", "title": "flatten preserves the value", "statement": "flatten returns an expression of equal value with no product directly inside a product and no sum directly inside a sum.", "quantifier": "every expression tree and every interpretation", "why_tests_cant": "Trees and algebras are unbounded.", "anchors": ["SeQuant/core/expressions/expr_algorithms.cpp: flatten"]}
{"id": "C13", "title": "rapid_simplify preserves the value", "statement": "Local simplification (dropping zeros, merging constants, unwrapping singletons) never changes the value of an expression.", "quantifier": "every expression tree and every interpretation", "why_tests_cant": "Trees and algebras are unbounded; the rewrite cases interact.", "anchors": ["SeQuant/core/expressions/expr_algorithms.cpp: RapidSimplifyVisitor"]}
{"id": "C14", "title": "Building products and sums has the obvious value", "statement": "append(s,x) multiplies on the right, prepend(s,x) on the left, and Sum append/prepend add, whatever flattening mode and however nested the argument.", "quantifier": "every product/sum, every argument expression, every flattening mode", "why_tests_cant": "Nested arguments combine with flattening modes in unboundedly many ways.", "anchors": ["SeQuant/core/expressions/product.hpp: Product::append, Product::prepend", "SeQuant/core/expressions/sum.hpp: Sum::append, Sum::prepend"]}
{"id": "C15", "title": "Arithmetic operators denote arithmetic", "statement": "+, -, *, +=, -=, *= on expression pointers denote addition, subtraction and multiplication of values.", "quantifier": "every pair of expressions and every interpretation", "why_tests_cant": "Case analysis over dynamic types times unbounded trees.", "anchors": ["SeQuant/core/expressions/expr.cpp: ExprPtr::operator+=, -=, *=", "SeQuant/core/expressions/expr_operators.hpp"]}
{"id": "C16", "title": "Collecting like terms preserves the sum", "statement": "Accumulating summands by hash and merging proportional ones yields an expression equal to the plain sum of all appended expressions.", "quantifier": "every sequence of appended summands, every hash function (including colliding ones)", "why_tests_cant": "Hash collisions cannot be produced by example inputs at will.", "anchors": ["SeQuant/core/expressions/sum.hpp: HashingAccumulator", "SeQuant/core/expressions/expr.cpp: HashingAccumulator::append, make_sum"]}
{"id": "C17", "title": "Constructing a sum from a list keeps every summand", "statement": "A sum built by moving a list of summands has the value of the list's sum, for every position and number of constants.", "quantifier": "every list of expressions", "why_tests_cant": "Position-dependent iterator logic; tests cover few positions.", "anchors": ["SeQuant/core/expressions/sum.hpp: Sum(move_only)"]}
{"id": "C18", "title": "Index-space bit algebra is a lattice", "statement": "Intersection, union and inclusion of index-space attributes satisfy the Boolean lattice laws, and the order on attributes is a strict total order compatible with equality.", "quantifier": "every pair/triple of 32-bit type and quantum-number masks", "why_tests_cant": "2^64 pairs and 2^192 triples.", "anchors": ["SeQuant/core/space.hpp: TypeAttr, QuantumNumbersAttr, Attr, IndexSpace"]}
{"id": "C19", "title": "Registry invariants hold after every history", "statement": "After any history of registry updates, keys are unique, each attribute is registered at most once, and cached base-space information equals what would be recomputed from the registered spaces.", "quantifier": "every finite history of add/remove/clear/query operations", "why_tests_cant": "Histories are unbounded; stale caches only appear in particular interleavings of queries and updates.", "anchors": ["SeQuant/core/index_space_registry.hpp: add, remove, clear, base_spaces, base_space_types"]}
{"id": "C20", "title": "Registry set operations agree with the bit algebra", "statement": "intersection, union and complement of registered spaces are commutative and denote the corresponding set operations on single-particle states.", "quantifier": "every registry content and every pair of spaces", "why_tests_cant": "Depends on arbitrary user-defined registries.", "anchors": ["SeQuant/core/index_space_registry.hpp: intersection, unIon, valid_unIon, non_overlapping_spaces"]}
{"id": "C21", "title": "Index substitution is simultaneous", "statement": "Transforming the indices of a term by a replacement map acts as one simultaneous substitution: composition, identity and injectivity laws hold, and no replaced index is replaced again.", "quantifier": "every index map and every index, with any nesting of proto-indices", "why_tests_cant": "Chained maps (a->b, b->c) and nesting make an unbounded family.", "anchors": ["SeQuant/core/index.hpp: Index::transform"]}
{"id": "C22", "title": "Generated temporary indices are globally unique", "statement": "No two calls of the temporary-index generator or of one index factory ever return the same index, for every interleaving of threads.", "quantifier": "every number of threads and every schedule of their atomic steps", "why_tests_cant": "Schedules are unbounded and races are not reproducible in tests.", "anchors": ["SeQuant/core/index.hpp: Index::next_tmp_index, IndexFactory::make"]}
{"id": "C23", "title": "Index equality, order and hashing agree", "statement": "Equal indices hash equally, the order is a strict total order and compares equal exactly when indices are equal.", "quantifier": "every pair/triple of indices", "why_tests_cant": "Ordering laws quantify over all triples.", "anchors": ["SeQuant/core/index.hpp: operator==, operator<=>, hash_value"]}
{"id": "C24", "title": "Tree visiting is the recursive traversal", "statement": "The iterative pre/in/post-order visits of a full binary tree call the visitor on every node exactly once in the recursive order, whatever pruning the visitor requests.", "quantifier": "every full binary tree and every visitor/pruning predicate", "why_tests_cant": "Trees are unbounded; the parent-pointer state machine must be right for all shapes.", "anchors": ["SeQuant/core/binary_node.hpp: FullBinaryNode::visit"]}
{"id": "C25", "title": "Tree copy, transform and fold are structure preserving", "statement": "deep_copy returns an equal tree that shares no nodes with the original, transform_node maps labels only, and left folding of a sequence yields the left-deep tree with the leaves in order.", "quantifier": "every full binary tree and every sequence", "why_tests_cant": "Explicit-stack algorithms over unbounded trees.", "anchors": ["SeQuant/core/binary_node.hpp: deep_copy, transform_node, fold_left_to_node"]}
{"id": "C26", "title": "Cache entries are served exactly within their lifetime", "statement": "A cached value can be read exactly as many times as registered, is then released, persistent values are never released, and reads return the value last stored.", "quantifier": "every history of store/access/reset operations", "why_tests_cant": "Histories are unbounded.", "anchors": ["SeQuant/core/eval/cache_manager.hpp: CacheManager, entry"]}
{"id": "C27", "title": "Cached evaluation equals plain evaluation", "statement": "Evaluating an expression tree through the stack machine with a cache returns the value of direct recursive evaluation, for every cache content consistent with earlier evaluations.", "quantifier": "every tree, every reachable cache state, every sign assignment of canonical phases", "why_tests_cant": "Which nodes hit the cache depends on the whole evaluation history.", "anchors": ["SeQuant/core/eval/eval.hpp: evaluate"]}
{"id": "C28", "title": "Evaluating a sequence of terms does not disturb other results", "statement": "Summing the results of a sequence of trees in place neither changes cached intermediate values nor values owned by the leaf evaluator, so the result is the sum of the individual values.", "quantifier": "every sequence of trees and every cache registration", "why_tests_cant": "Aliasing appears only for particular sharing patterns between terms.", "anchors": ["SeQuant/core/eval/eval.hpp: evaluate(Nodes, layout, le, cache)"]}
{"id": "C29", "title": "Asymptotic costs are ordered like functions", "statement": "The order on asymptotic costs is a strict weak order and agrees with eventual growth; sum and product of costs denote sum and product of the cost polynomials.", "quantifier": "every pair/triple of cost polynomials", "why_tests_cant": "Order laws quantify over all triples of polynomials.", "anchors": ["SeQuant/core/asy_cost.hpp: AsyCost::operator<, operator+, operator*"]}
{"id": "C30", "title": "Single-term optimization is optimal", "statement": "The contraction order returned for a product has minimal total cost among all binary contraction trees over the given tensors.", "quantifier": "every number of tensors and every nonnegative cost function of subset pairs", "why_tests_cant": "The number of trees is (2n-3)!!; tests only check a few networks.", "anchors": ["SeQuant/core/optimize/cost_model.hpp: AdditiveModel, solve_single_term"]}
{"id": "C31", "title": "Contraction sequences are well formed and value preserving", "statement": "The postfix sequence produced by the optimizer mentions each tensor exactly once, reduces to exactly one result, and the optimized expression has the same value as the input product.", "quantifier": "every product of tensors and scalars, every cost table", "why_tests_cant": "Depends on all cost tables and product shapes.", "anchors": ["SeQuant/core/optimize/cost_model.hpp: AdditiveModel::reconstruct", "SeQuant/core/optimize/single_term.hpp: single_term_opt"]}
{"id": "C32", "title": "Pareto frontiers keep exactly the non-dominated states", "statement": "After any sequence of insertions, the frontier consists of exactly the non-dominated inserted states.", "quantifier": "every sequence of inserted states", "why_tests_cant": "Insertion order and ties are unbounded.", "anchors": ["SeQuant/core/optimize/cost_model.hpp: pareto_insert"]}
{"id": "C33", "title": "Open indices of sub-networks are right", "statement": "The index set kept for each sub-network consists of exactly those indices that are still needed outside the sub-network or in the result.", "quantifier": "every tensor network and every subset of its tensors", "why_tests_cant": "2^n subsets of arbitrary networks with hyperindices.", "anchors": ["SeQuant/core/utility/indices.hpp: subset_target_indices, left_to_right_binarization_indices, get_unique_indices"]}
{"id": "C34", "title": "Generation peephole optimization preserves program meaning", "statement": "Removing and merging load/unload/create/destroy operations in generated code leaves the values in backing store and of all computations unchanged.", "quantifier": "every program (operation sequence) and every initial store", "why_tests_cant": "Programs are unbounded; bugs need particular adjacent operations.", "anchors": ["SeQuant/core/export/generation_optimizer.hpp: GenerationOptimizer"]}
{"id": "C35", "title": "Fusing products preserves the sum", "statement": "When two products are fused by factoring out a common left/right part, the fused expression equals the sum of the two.", "quantifier": "every pair of products and every interpretation in an algebra", "why_tests_cant": "All overlaps of all products.", "anchors": ["SeQuant/core/optimize/fusion.cpp: Fusion"]}
{"id": "C36", "title": "Reordering a sum for reuse is a permutation", "statement": "Clustering summands by shared intermediates and reordering them loses and duplicates no summand.", "quantifier": "every sum and every sharing pattern", "why_tests_cant": "Graph algorithm over arbitrary sharing patterns.", "anchors": ["SeQuant/core/optimize/sum.cpp: clusters, reorder"]}
{"id": "C37", "title": "Memoized factorial is correct under concurrency", "statement": "factorial(n) equals n! for every n and for every interleaving of concurrent callers extending the shared table.", "quantifier": "every n, every number of callers and every schedule", "why_tests_cant": "Schedules are unbounded.", "anchors": ["SeQuant/core/math.hpp: factorial"]}
{"id": "C38", "title": "Rational approximation meets its error bound", "statement": "to_rational(x, eps) terminates and returns a fraction within eps of x.", "quantifier": "every rational x and every eps > 0", "why_tests_cant": "Real-number error bounds for all inputs.", "anchors": ["SeQuant/core/rational.hpp: to_rational"]}
{"id": "C39", "title": "Serialized expressions read back to the same value", "statement": "Parsing the text written for an expression yields an expression of the same value.", "quantifier": "every expression built from real rational constants, variables, tensors, products and sums", "why_tests_cant": "Nesting, sign and scalar formatting interact in unboundedly many ways.", "anchors": ["SeQuant/core/io/serialization/v1/serialize.cpp", "SeQuant/core/io/serialization/v1/deserialize.cpp", "SeQuant/core/io/serialization/v1/ast_conversions.hpp"]}
{"id": "C40", "title": "Scoped contexts are restored", "statement": "When a scoped default context ends, the default context is what it was when the scope began, whatever happened inside.", "quantifier": "every nesting of scopes and every history of context changes inside them", "why_tests_cant": "Histories and nestings are unbounded.", "anchors": ["SeQuant/core/utility/context.hpp: set_scoped_implicit_context, ImplicitContextResetter"]}
{"id": "C41", "title": "Tensor canonicalization uses only declared symmetry", "statement": "Canonicalizing a tensor permutes its slots only in ways allowed by its declared symmetry and the returned sign makes (sign x canonical tensor) equal to the original tensor.", "quantifier": "every tensor, every comparator and every interpretation with the declared symmetry", "why_tests_cant": "All ranks, index patterns and symmetries.", "anchors": ["SeQuant/core/tensor_canonicalizer.hpp: DefaultTensorCanonicalizer::apply, TensorBlockCanonicalizer::apply"]}
{"id": "C42", "title": "Antisymmetrization generates each coset once with its sign", "statement": "The list of index arrangements generated for antisymmetrization contains exactly one representative for every class of permutations modulo reordering within a factor, with the sign of the permutation.", "quantifier": "every number and size of index groups", "why_tests_cant": "Factorially many permutations.", "anchors": ["SeQuant/domain/mbpt/antisymmetrizer.cpp: antisymm_element::gen_antisymm_unique"]}
{"id": "C43", "title": "Quantum-number screening is sound", "statement": "Combining the quantum-number changes of two operators bounds every term of their product, so that screening never discards a non-vanishing vacuum average.", "quantifier": "every pair of operators with interval quantum numbers, every number of contractions, any number of base spaces", "why_tests_cant": "Interval bounds over all operators and contraction patterns.", "anchors": ["SeQuant/domain/mbpt/op.cpp: combine, adjoint", "SeQuant/domain/mbpt/op.hpp: QuantumNumberChange"]}
{"id": "C44", "title": "Packed pair index is a bijection", "statement": "The packed upper-triangular index used for connection bookkeeping maps the pairs i<j<n one-to-one onto 0..n(n-1)/2-1.", "quantifier": "every n", "why_tests_cant": "Every n; a collision would silently merge two connection counters.", "anchors": ["SeQuant/core/wick.hpp: uptri_idx, ntri"]}
{"id": "C45", "title": "Contraction bookkeeping is undone exactly", "statement": "Undoing a contraction restores the connection bookkeeping to the state before the contraction, so the search explores every branch from a consistent state.", "quantifier": "every reachable bookkeeping state and every pair of operators", "why_tests_cant": "All reachable states of a recursive search.", "anchors": ["SeQuant/core/wick.hpp: NontensorWickState::connect, disconnect"]}
{"id": "C46", "title": "Occupancy classification of index spaces", "statement": "The registry reports a space as purely occupied exactly if all its base types are occupied in the vacuum, as purely unoccupied exactly if none is, and as containing occupied (unoccupied) states exactly if some is.", "quantifier": "every space type and every vacuum-occupied type", "why_tests_cant": "2^31 masks on each side; only the customary layouts are tested.", "anchors": ["SeQuant/core/index_space_registry.hpp: is_pure_occupied, is_pure_unoccupied, contains_occupied, contains_unoccupied"]}
{"id": "C47", "title": "Peak-memory optimization is exact", "statement": "The order chosen by the peak-memory objective has, within the given tolerance, the least peak memory of all contraction trees and orders of evaluation, and among those within the tolerance the least secondary cost.", "quantifier": "every number of tensors, all sizes of intermediates, every tolerance and all contraction trees and evaluation orders", "why_tests_cant": "The number of trees and orders grows super-exponentially; a frontier that loses one point is wrong only for special sizes.", "anchors": ["SeQuant/core/optimize/cost_model.hpp: PeakModel, pareto_insert, pareto_best"]}
{"id": "C48", "title": "Operators reported as commuting do commute", "statement": "If two many-body operators are reported as commuting, exchanging them does not change the value of a product.", "quantifier": "every pair of operators with interval quantum numbers, any number of base spaces", "why_tests_cant": "Operators are reordered during canonicalization by this test; a wrong answer shows only in products where the commutator matters.", "anchors": ["SeQuant/domain/mbpt/op.ipp: Operator::commutes_with_atom", "SeQuant/domain/mbpt/op.cpp: combine"]}
{"id": "C49", "title": "Scope guards act exactly once", "statement": "The action of a scope guard is run exactly once, when the guard that owns it ends, unless it was released before.", "quantifier": "every history of making, moving, releasing and destroying guards", "why_tests_cant": "Histories are unbounded; copies are elided in the usual uses, so tests never move a guard.", "anchors": ["SeQuant/core/utility/scope.hpp: scope_exit"]}
{"id": "C50", "title": "Coefficients of antisymmetrized products", "statement": "Every summand made from a product has as coefficient the scalar of the product times the signs of the permutations of its upper and lower indices.", "quantifier": "every product of tensors, normal operators and constants, with every scalar", "why_tests_cant": "Factorially many summands; the tests use products without scalar.", "anchors": ["SeQuant/domain/mbpt/antisymmetrizer.cpp: antisymm_element::antisymm_element"]}
{"id": "C51", "title": "Slots of tensors are kept canonically", "statement": "The slots a tensor with column symmetry is kept with depend only on its columns: empty and missing slots are equivalent, so tensors with the same columns up to order are kept alike.", "quantifier": "every tensor with empty or missing slots", "why_tests_cant": "Positions of empty slots combine exponentially; the tests try a few with empty bra slots.", "anchors": ["SeQuant/core/expressions/tensor.hpp: Tensor::canonicalize_slots"]}
{"id": "C52", "title": "Closed-shell spin traces have the right prefactors", "statement": "The result of closed_shell_spintrace is the sum over all assignments of spin to the indices (external indices paired), of the expression whose tensors vanish unless every column conserves spin.", "quantifier": "every sum of products of nonsymmetric tensors (and symmetrizers), any ranks, any number of tensors and of external pairs", "why_tests_cant": "The prefactor is a power of two found by counting cycles; the tests compare with a few coupled-cluster equations.", "anchors": ["SeQuant/domain/mbpt/spin.cpp: closed_shell_spintrace_impl", "SeQuant/core/utility/permutation.hpp: count_cycles"]}
{"id": "C53", "title": "Expanding antisymmetric tensors keeps the value", "statement": "expand_antisymm replaces antisymmetric tensors by signed sums of nonsymmetric ones without changing the value of the expression.", "quantifier": "every expression, every rank, all spin labels, every interpretation in which antisymmetric tensors are antisymmetrized ones", "why_tests_cant": "The number of terms is factorial in the rank; terms are dropped by a spin test.", "anchors": ["SeQuant/domain/mbpt/spin.cpp: expand_antisymm, ms_conserving_columns, ms_uniform_tensor"]}
{"id": "C54", "title": "Expanding permutation operators keeps the value", "statement": "expand_A_op, symmetrize_expr with S_maps, and expand_P_op replace the operator by the sum over the (signed, normalised) permutations of its indices.", "quantifier": "every product, all ranks of the operators, every scalar and every interpretation", "why_tests_cant": "Factorially many permutations with signs and prefactors; the tests use ranks two and three.", "anchors": ["SeQuant/domain/mbpt/spin.cpp: expand_A_op, symmetrize_expr, S_maps, expand_P_op"]}
{"id": "C55", "title": "General spin traces are sums over spin assignments", "statement": "The result of spintrace is the sum over all assignments of spin to the indices, groups of external indices having equal spin; with spin-free index spaces, the values are those of the closed-shell tensors.", "quantifier": "every sum of products, any ranks, any number of tensors and of external groups, with and without removal of the spin labels", "why_tests_cant": "The number of assignments is exponential; terms are dropped by spin tests on whole tensors; the tests compare a few coupled-cluster equations.", "anchors": ["SeQuant/domain/mbpt/spin.cpp: spintrace_impl, append_spin, remove_spin, can_expand"]}
{"id": "C56", "title": "Evaluation trees compute the value of the expression", "statement": "The tree that binarize makes from an expression evaluates to the value of the expression: products summed over their repeated indices (Einstein's convention) unless they are kept, sums added summand by summand, adjoint tensors conjugated.", "quantifier": "every expression of constants, variables, tensors, nested sums and products, every set of kept indices, all extents and all arrays", "why_tests_cant": "The indices of each intermediate depend on all later factors and on the enclosing products; the tests compare the shape of some trees.", "anchors": ["SeQuant/core/eval/eval_expr.cpp: binarize, make_prod, make_sum, EvalExpr", "SeQuant/core/eval/eval_expr.hpp: EvalExpr"]}
{"id": "C57", "title": "Nodes that the cache takes for the same have the same value", "statement": "If TreeNodeEqualityComparator takes two nodes of evaluation trees for the same, their arrays agree up to the canonical phases of the nodes; so evaluation with a cache keyed by this comparison returns the values of the expressions, whatever was evaluated before.", "quantifier": "all trees made from expressions, all arrays and extents, every history of evaluations, every hash function", "why_tests_cant": "The comparison looks at hashes, blocks of spaces and canonical graphs instead of values; wrong identifications only show for particular pairs of terms.", "anchors": ["SeQuant/core/eval/eval_node_compare.hpp: TreeNodeEqualityComparator", "SeQuant/core/utility/tensor.hpp: TensorBlockComparator", "SeQuant/core/eval/eval_expr.cpp: binarize"]}
{"id": "C58", "title": "Hugenholtz vertices group the equivalent edges", "statement": "A HugenholtzVertex puts edge i into exactly one group, which contains exactly the positions of the edges equivalent to edge i; group_size and num_nonempty_groups return the number of edges equivalent to edge i and the number of kinds; erase and insert at any position keep this, and they fail only for positions that do not exist or edges of the wrong kind.", "quantifier": "all sequences of edges, all equivalence relations, every history of erase and insert", "why_tests_cant": "Erasing and inserting renumbers all edges in all groups; empty groups stay; the tests use a handful of edges.", "anchors": ["SeQuant/core/hugenholtz.hpp: HugenholtzVertex"]}
{"id": "C59", "title": "What normal operators keep with their operators is up to date", "statement": "The number of creators, the Hugenholtz vertex and the memoized hash value of a NormalOperator are those of its present sequence of operators, and no assertion fails.", "quantifier": "every history of hug, hash_value, erase, insert, adjoint and transform_indices on every normal operator", "why_tests_cant": "Stale state only shows after particular orders of calls.", "anchors": ["SeQuant/core/op.hpp: NormalOperator::erase, insert, adjoint, transform_indices, hug; Operator::memoizing_hash"]}
{"id": "C60", "title": "Density fitting keeps the value of the expression", "statement": "If a two-body tensor is the sum over an auxiliary index of products of two factors, the result of density_fit has the value of the expression, the new indices being summed in every term.", "quantifier": "every expression of constants, variables, tensors, sums and products, any number of two-body tensors (nonsymmetric and antisymmetric) per product, all arrays and extents", "why_tests_cant": "The new indices are numbered per product; a clash or a wrong pairing of slots only shows in the numerical value of particular terms.", "anchors": ["SeQuant/domain/mbpt/rules/df.cpp: density_fit, density_fit_impl"]}
{"id": "C61", "title": "Tensor hypercontraction keeps the value of the expression", "statement": "If a two-body tensor is a sum over two auxiliary indices of products of four factors and a core tensor, the result of tensor_hypercontract has the value of the expression, the new indices being summed in every term.", "quantifier": "every expression of constants, variables, tensors, sums and products, any number of two-body tensors per product, all arrays and extents", "why_tests_cant": "Each auxiliary index occurs three times, outside of Einstein's convention; the tests compare one or two expressions.", "anchors": ["SeQuant/domain/mbpt/rules/thc.cpp: tensor_hypercontract, tensor_hypercontract_impl"]}
{"id": "C62", "title": "The transformation to cluster-specific virtuals keeps the value of the expression", "statement": "The result of csv_transform has the value of the expression: every slot with proto-indices is replaced by a new index and a coefficient, overlaps of two virtuals by two coefficients, the new indices being summed in every term; assertions hold and no null pointer is returned.", "quantifier": "every expression (nested sums and products), tensors of every rank with any pattern of proto-indices, orthonormal and other bases", "why_tests_cant": "New indices come from a global counter or from dropping proto-indices; clashes depend on which indices two overlaps share.", "anchors": ["SeQuant/domain/mbpt/rules/csv.cpp: csv_transform, csv_transform_impl"]}
{"id": "C63", "title": "Similarity transformations are truncated Campbell series", "statement": "lst(A, B, n) returns an expression whose value is the sum over k from 0 to n of 1/k! times the k-fold commutator of A with B (with B - adjoint(B) if unitary), that is, the part of exp(-B) A exp(B) of order at most n in B; in the connected form every commutator is replaced by a product and scalars are unchanged; it returns for every expression of operators, variables and constants.", "quantifier": "every expression A of operators, variables, constants, nested sums and products, every expression B, every rank n, all four options, all values in noncommutative algebras", "why_tests_cant": "The factors 1/k, the signs and the recursion over sums and unexpanded products only show in the value at high ranks; the tests compare a few coupled-cluster terms.", "anchors": ["SeQuant/domain/mbpt/utils.cpp: lst"]}
{"id": "C64", "title": "Screening keeps vacuum averages", "statement": "If the vacuum average of single operators and of products that cannot change the quantum numbers by zero vanishes, screen_vac_av returns an expression with the vacuum average of its argument; operators and such products become zero, all other terms are unchanged.", "quantifier": "every expression of operators, variables, constants, nested sums and products, every linear average", "why_tests_cant": "Dropping a contributing term only shows in the final equations.", "anchors": ["SeQuant/domain/mbpt/utils.cpp: screen_vac_av"]}
{"id": "C65", "title": "pop_tensor factors a tensor out", "statement": "pop_tensor leaves no tensor with the label, returns the one it removed, and the value of the expression is the value of the returned tensor times the value of what is left (the value is unchanged if there is no such tensor).", "quantifier": "every expression of constants, variables, tensors, nested sums and products, all values", "why_tests_cant": "The tests call it for a few sums of products with a leading antisymmetrizer; other positions, lone tensors and sums with mixed terms are not tried.", "anchors": ["SeQuant/core/utility/expr.cpp: pop_tensor"]}
{"id": "C66", "title": "Topological canonicalization keeps the value of a network", "statement": "canonicalize_graph runs to its end and returns a sign such that the network before equals the sign times the network after: renaming anonymous indices in the order of the canonical graph, permuting columns or bra and ket slots, exchanging bra and ket and reordering commuting tensors keep the sum over the anonymous indices of the product of the tensors.", "quantifier": "every network of tensors of any rank, symmetry and number, proto-indices included; every graph canonizer (any vertex permutation); every interpretation of the tensors with their declared symmetries in any ring, over any finite set of orbitals", "why_tests_cant": "The sign, the renaming via tags and repeated passes and the permutation of columns interact; tests compare string forms for a few networks with one bliss version.", "anchors": ["SeQuant/core/tensor_network/v3.cpp: canonicalize_graph", "SeQuant/core/tensor_network/utils.hpp: apply_index_replacements, sort_then_replace_by_ordinals", "SeQuant/core/index.hpp: IndexFactory, Index::transform", "SeQuant/core/expressions/abstract_tensor.hpp: _permute_columns, _permute_bra, _permute_ket"]}
{"id": "C67", "title": "canonicalize keeps the value and the external indices of a network", "statement": "TensorNetworkV3::canonicalize, with any combination of the topological and lexicographic methods and default or given named indices, returns a byproduct such that the network before equals the byproduct times the network after; external indices and the tensors up to their indices are kept; the comparator of the final sort is a strict weak order.", "quantifier": "every network, every method, every set of named indices, every comparator of the canonicalizers", "why_tests_cant": "The lexicographic stage renames indices by position in a list that mixes named and anonymous edges; networks whose proto-indices are in no slot are hardly tested.", "anchors": ["SeQuant/core/tensor_network/v3.cpp: canonicalize, do_individual_canonicalization", "SeQuant/core/tensor_network/utils.hpp: CanonicalTensorCompare"]}
{"id": "C68", "title": "Input ordinals follow the tensors", "statement": "sort_via_ordinals sorts the sequence and returns the ordinals of the sorted elements in the input; after canonicalize tensor_input_ordinals()[k] is the position in the input of the k-th tensor.", "quantifier": "every sequence and every order; every network and method", "why_tests_cant": "No test calls tensor_input_ordinals().", "anchors": ["SeQuant/core/tensor_network/utils.hpp: sort_via_ordinals", "SeQuant/core/tensor_network/v3.hpp: tensor_input_ordinals"]}
{"id": "C69", "title": "Edges and external indices of a network", "statement": "init_edges makes exactly one edge per index of a slot, with the number of its slots, in the order of the indices; external are exactly the indices of one slot, their proto-indices and the proto-indices that are in no slot; both are independent of the order of tensors and slots.", "quantifier": "every network, hyperedges and proto-indices included", "why_tests_cant": "Binary search, insertion and the second pass over proto-indices only matter for indices in particular orders.", "anchors": ["SeQuant/core/tensor_network/v3.cpp: init_edges"]}
{"id": "C70", "title": "Elimination of Kronecker deltas keeps the value", "statement": "reduce_wick_impl (compute_index_replacement_rules and apply_index_replacement_rules, repeated) returns a product with the same value: the sum over the internal indices, each over its space, at fixed values of the external indices; if it reports a null product the value is zero.", "quantifier": "every product of tensors, Kronecker deltas and overlaps, all sets of external and noncovariant indices, every system of spaces with intersections, every value of the tensors in any ring", "why_tests_cant": "Rules are created, updated and merged depending on the order of the deltas and on the spaces of all indices that were identified before; tests cover chains of two or three deltas.", "anchors": ["SeQuant/core/wick.impl.hpp: compute_index_replacement_rules", "SeQuant/core/wick.impl.hpp: apply_index_replacement_rules", "SeQuant/core/wick.impl.hpp: reduce_wick_impl"]}
{"id": "C71", "title": "Elimination of Kronecker deltas terminates and is complete", "statement": "reduce_wick_impl ends after at most as many passes as there are deltas plus one, throws only if an intersection is not registered, and its result has no Kronecker delta (overlap, without noncovariant indices) with an internal index that could be eliminated.", "quantifier": "every product, all external indices", "why_tests_cant": "The do-while loop stops at the first pass that removes no delta although it may have replaced indices.", "anchors": ["SeQuant/core/wick.impl.hpp: reduce_wick_impl", "SeQuant/core/wick.impl.hpp: apply_index_replacement_rules"]}
{"id": "C72", "title": "Exported code computes the value of the expression", "statement": "The sequence of generator callbacks export_expression emits for an evaluation tree (after scalar factors were pruned, operands swapped, sums accumulated in place, intermediates renamed and reused), executed with the documented meaning of the callbacks, stores the value of the tree in the result.", "quantifier": "every evaluation tree made of tensors, variables, constants and powers with products, sums and adjoints; every choice of prunable scalars; all sizes of index ranges, all input arrays over every commutative ring; every initial state of other objects", "why_tests_cant": "The preprocessing rewrites the tree while reference counts decide which names are reused; the tests compare generated text for a few expressions and never execute it.", "anchors": ["SeQuant/core/export/export.hpp: PreprocessVisitor", "SeQuant/core/export/export.hpp: GenerationVisitor", "SeQuant/core/export/export.hpp: export_expression"]}
{"id": "C73", "title": "Exported code uses memory properly", "statement": "The emitted program never creates or loads an object which is in memory, never computes with, persists or unloads one which is not, reads no undefined content, leaves inputs unchanged and unloaded, leaves nothing in memory, and changes no object which was not declared; reference counting never fails an assertion.", "quantifier": "every evaluation tree, every choice of prunable scalars, all inputs, sequences of expressions", "why_tests_cant": "Counts of uses depend on the whole history of the traversal, on renamed intermediates and on shared leaves.", "anchors": ["SeQuant/core/export/export.hpp: GenerationVisitor::load_or_create", "SeQuant/core/export/export.hpp: GenerationVisitor::drop", "SeQuant/core/export/export.hpp: GenerationVisitor::process_computation", "SeQuant/core/export/export.cpp: rename"]}
{"id": "C74", "title": "Exported code declares what it uses", "statement": "Every tensor, variable and index that occurs in the emitted operations was collected by the preprocessing for declaration, and an object is declared as a terminal exactly if it is an input.", "quantifier": "every evaluation tree, every choice of prunable scalars", "why_tests_cant": "Pruned scalar factors and renamed intermediates leave the tree before usage is tracked.", "anchors": ["SeQuant/core/export/export.hpp: track_usage", "SeQuant/core/export/export.hpp: prune_scalar_factor", "SeQuant/core/export/export.hpp: declare_all"]}
{"id": "C75", "title": "Expressions made from evaluation trees have the value of the tree", "statement": "to_expr applied to an evaluation tree yields an expression with the value of the tree: contractions run over the same indices, factors, summands and scalars are kept.", "quantifier": "every evaluation tree of tensors, variables, constants, sums, products and adjoints; all sizes of index ranges and all input arrays over every commutative ring", "why_tests_cant": "Nested products and sums are flattened and constants merged by rules that depend on the kinds of both operands; tests convert a few trees and compare text.", "anchors": ["SeQuant/core/eval/eval_expr.hpp: to_expr"]}
{"id": "C76", "title": "Common subexpression elimination keeps all values", "statement": "Evaluating the trees after eliminate_common_subexpressions one after the other stores the same arrays under all names of the original results as evaluating the original trees.", "quantifier": "every list of evaluation trees, every label generator with fresh labels, every filter, all sizes of index ranges and all input arrays over every commutative ring", "why_tests_cant": "Subexpressions are identified up to renaming of indices and sign; the tests count definitions for a few expressions and never evaluate.", "anchors": ["SeQuant/core/optimize/common_subexpression_elimination.hpp: eliminate_common_subexpressions", "SeQuant/core/optimize/common_subexpression_elimination.hpp: SubexpressionReplacer"]}
{"id": "C77", "title": "Common subexpression elimination inserts definitions where they are needed and leaves no common subexpressions", "statement": "The trees stay in order, every definition comes directly before the first tree that uses it, exactly the positions of definitions are returned, every subexpression is defined once under a consecutive number, no more definitions are inserted than storage was reserved for, what is replaced occurred at least twice, and without a filter no two equal inner nodes are left in the trees.", "quantifier": "every list of evaluation trees, every filter, every label generator, every choice of batch indices", "why_tests_cant": "Insertion into the container being traversed relies on the reserved capacity; the early stop of the search interacts with nesting of subexpressions.", "anchors": ["SeQuant/core/optimize/common_subexpression_elimination.hpp: SubexpressionIdentifier", "SeQuant/core/optimize/common_subexpression_elimination.hpp: SubexpressionReplacer::perform_replacements", "SeQuant/core/utility/tensor.hpp: IndexSpecificTensorBlockComparator"]}
{"id": "C78", "title": "Extraction of subtrees takes exactly the maximal ones", "statement": "extract_subtrees captures a node if and only if the predicate holds for it and it is a root or the predicate does not hold for its parent; the returned set has no two equal trees; outside the captured nodes the trees are unchanged, and putting the captured trees back gives the original trees.", "quantifier": "every forest of binary trees, every predicate that looks at a node, its children and the values for the children", "why_tests_cant": "The predicate is asked about trees that change during the traversal.", "anchors": ["SeQuant/core/optimize/extract_subtrees.hpp: extract_subtrees", "SeQuant/core/optimize/extract_subtrees.hpp: extract_subtrees_visit"]}
{"id": "C79", "title": "Batches of a mode partition its range along tile boundaries", "statement": "mode_batches of a mode yields consecutive element ranges that start and end at tile boundaries and together cover the whole mode; a batch exceeds the target size only if it is a single tile and ends only where the next tile would exceed the target; slice_mode with a batch takes exactly the elements in the range.", "quantifier": "every sequence of consecutive tiles, every target size", "why_tests_cant": "The grouping of tiles depends on all tile sizes; tests use uniform tiles.", "anchors": ["SeQuant/core/eval/backends/tiledarray/result.hpp: mode_batches", "SeQuant/core/eval/backends/tiledarray/result.hpp: slice_mode"]}
{"id": "C80", "title": "Evaluation in batches gives the same results as plain evaluation", "statement": "Evaluation with the custom evaluator made by make_batched_custom_evaluator fails no assertion and uses no null pointer, returns the same array as plain evaluation, changes no existing object, and leaves in the cache only right values; exactly the persistent entries without data that are batched over the same partition are filled, all other entries and their life counts stay as they were.", "quantifier": "every evaluation tree, every cache content with right values, every set of registered persistent nodes, every partition into batches, every predicate for accepted indices and volatile leaves, all input arrays over every commutative ring", "why_tests_cant": "Partial results are shared between occurrences that are equal up to renaming when the position of the batch index agrees; nested members are processed in layers; tests run a few trees with one batch index.", "anchors": ["SeQuant/core/eval/eval.hpp: make_batched_custom_evaluator", "SeQuant/core/eval/eval.hpp: make_batched_scratch", "SeQuant/core/eval/eval.hpp: batch_axis", "SeQuant/core/eval/eval.hpp: find_leaf_carrying"]}
{"id": "C81", "title": "Symmetrization and antisymmetrization of arrays are projections", "statement": "symmetrize yields the mean over all simultaneous permutations of bra and ket, antisymmetrize the mean with signs over all permutations of the bra and all of the ket, with every backend; the results are (anti)symmetric, arrays that are (anti)symmetric stay unchanged, and arrays of wrong rank are refused.", "quantifier": "every rank and bra rank, all arrays over every field of characteristic zero whose modes to be exchanged have equal extents", "why_tests_cant": "Permutations are generated in place through pairs of iterators with a custom swap; normalization and sign matter for ranks beyond those tested.", "anchors": ["SeQuant/core/eval/result.hpp: symmetric_permutation", "SeQuant/core/eval/result.hpp: antisymmetric_permutation", "SeQuant/core/eval/backends/tiledarray/result.hpp: column_symmetrize_ta", "SeQuant/core/eval/backends/tiledarray/result.hpp: particle_antisymmetrize_ta", "SeQuant/core/eval/backends/btas/result.hpp: particle_antisymmetrize_btas", "SeQuant/core/eval/backends/tapp/result.hpp: particle_antisymmetrize_tapp"]}
{"id": "C82", "title": "Coefficients of the biorthogonal transformation are the normalized pseudoinverse of the overlap", "statement": "The hardcoded coefficients for one to five particles are the pseudoinverse of the matrix of overlaps of spin-free excitations, normalized by n! / rank, and so are the weights of the projection onto its range; the overlap is the sum over spins kept by the relative permutation with its sign; other numbers of particles are refused by the hardcoded tables.", "quantifier": "every number of particles; for the numbering of permutations every one of the conventions the external library may use", "why_tests_cant": "The tables hold up to 120 fractions each, typed in by hand; tests compare them with a numerically computed pseudoinverse, up to rounding and for few rows.", "anchors": ["SeQuant/domain/mbpt/biorthogonalization.cpp: hardcoded_biorthogonalizer_row", "SeQuant/domain/mbpt/biorthogonalization.cpp: make_hardcoded_biorthogonalizer_matrix", "SeQuant/domain/mbpt/biorthogonalization.hpp: hardcoded_nns_projector", "SeQuant/domain/mbpt/biorthogonalization.cpp: permutational_overlap_matrix", "SeQuant/domain/mbpt/biorthogonalization.cpp: compute_biorthogonalizer_matrix", "SeQuant/domain/mbpt/biorthogonalization.cpp: compute_nns_p_coeffs"]}
{"id": "C83", "title": "Projection of arrays onto the range of the overlap", "statement": "biorthogonal_nns_project sums over the permutations of the ket with weights that are, up to a factor, the projector onto what the overlap keeps: projecting twice multiplies by the factor, arrays that the overlap annihilates vanish, arrays in its range are kept up to the factor; arrays with few modes are returned, modes of different extent refused.", "quantifier": "every rank, bra rank and array over every field of characteristic zero", "why_tests_cant": "Tests use random arrays of rank six and eight; the algebra holds for all.", "anchors": ["SeQuant/domain/mbpt/biorthogonalization.hpp: biorthogonal_nns_project_ta", "SeQuant/domain/mbpt/biorthogonalization.hpp: biorthogonal_nns_project_btas", "SeQuant/domain/mbpt/biorthogonalization.hpp: biorthogonal_nns_project_tapp", "SeQuant/domain/mbpt/biorthogonalization.cpp: compute_permuted_indices"]}
{"id": "C84", "title": "Biorthogonal transformation of expressions", "statement": "biorthogonal_transform yields the sum over all permutations of the second external indices with the coefficients of the normalized pseudoinverse, so that the overlaps of the result are the original expression up to a factor.", "quantifier": "every number of particles, all external indices, all expressions", "why_tests_cant": "Permutations are made by replacing indices, in the one or the other slot depending on spaces; tests cover two and three particles.", "anchors": ["SeQuant/domain/mbpt/biorthogonalization.cpp: create_expr_for", "SeQuant/domain/mbpt/biorthogonalization.cpp: biorthogonal_transform"]}
{"id": "C85", "title": "Replacement of indices in expressions", "statement": "transform_expr yields an expression whose value is the factor times the value of the original at the replaced indices, and throws for products with factors that are products or sums.", "quantifier": "all expressions, replacements (also non-injective and cyclic ones) and factors", "why_tests_cant": "Simultaneous replacement matters for cyclic maps; the factor has to go to each term of a sum exactly once.", "anchors": ["SeQuant/core/utility/expr.cpp: transform_expr"]}
{"id": "C86", "title": "Memoization shared by threads", "statement": "memoize computes the value for a key at most once and returns to every caller a reference to the value for its own key, also when several threads call it at the same time; callers that wait are woken, and no caller waits forever.", "quantifier": "every number of threads, all keys and functions, all interleavings, also with functions that throw", "why_tests_cant": "The lock is released during the computation and an iterator and a reference outlive it; races need many threads and keys.", "anchors": ["SeQuant/core/utility/memoize.hpp: memoize"]}
{"id": "C87", "title": "Results of the BTAS and TAPP backends compute sums over labels", "statement": "Products, sums, permutations, adjoints and phases of results of the BTAS and of the TAPP backend have the elements that the annotations say: the product is the sum over the contracted labels, also with batch labels that are in both factors and in the result, and both backends agree.", "quantifier": "all extents (also 0 and rank 0), annotations, elements of a commutative semiring", "why_tests_cant": "batched_contract permutes, slices, contracts and permutes back with computed strides; a wrong offset shows only for some shapes.", "anchors": ["SeQuant/core/eval/backends/btas/result.hpp: batched_contract, ResultTensorBTAS", "SeQuant/core/eval/backends/tapp/ops.hpp: contract, permute", "SeQuant/core/eval/backends/tapp/result.hpp: ResultTensorTAPP"]}
{"id": "C88", "title": "Arrays of the TAPP backend own their handles", "statement": "Every TAPP array holds a handle of its own which describes its extents; a handle is destroyed exactly once, by copies, moves, assignments, clear and the destructor in any order.", "quantifier": "all sequences of constructions, copies, moves, assignments (also to itself), clear and destructions", "why_tests_cant": "A double destruction or a leak depends on the order of special member functions.", "anchors": ["SeQuant/core/eval/backends/tapp/tensor.hpp: TAPPTensor"]}
{"id": "C89", "title": "Complex rationals compute like complex numbers", "statement": "Sums, differences, products, quotients, conjugates, squared norms, absolute values and comparisons of Complex<rational> are those of the complex numbers they stand for; division fails exactly for the divisor zero.", "quantifier": "all complex rationals", "why_tests_cant": "Every prefactor goes through these operations; single values show little about the formulas.", "anchors": ["SeQuant/core/complex.hpp: Complex, operator/, abs, conj"]}
{"id": "C90", "title": "Powers keep their value", "statement": "Flattening a power, multiplying it by a power, variable or constant with the same base, taking its adjoint and copying it give expressions with the right value; exact roots are found.", "quantifier": "all bases, rational exponents, marks of conjugation, and values of the variables", "why_tests_cant": "Signs of exponents, halves, conjugation and zero bases combine in many ways.", "anchors": ["SeQuant/core/expressions/power.hpp: Power, Power::flatten, Power::operator*="]}
{"id": "C91", "title": "Stored hashes of constants, variables and powers are up to date", "statement": "After any sequence of operations the hash of a constant, variable or power is the hash of its value, and the order of powers is a strict weak order.", "quantifier": "all sequences of operations, all hash functions", "why_tests_cant": "A stale hash shows only if the hash was asked for before a change and is asked for again after it.", "anchors": ["SeQuant/core/expressions/constant.hpp: memoizing_hash", "SeQuant/core/expressions/variable.hpp: memoizing_hash", "SeQuant/core/expressions/power.hpp: memoizing_hash, static_less_than", "SeQuant/core/expressions/expr.cpp: Variable::conjugate"]}
{"id": "C92", "title": "Reordering indices for a memory layout keeps the array", "statement": "Tensors rewritten for a memory layout have the same indices in another order such that all occurrences of a tensor denote elements of one array, and the mode that is contiguous in memory has the largest space.", "quantifier": "all tensors, symmetries, sizes of spaces, layouts, and outcomes of unstable sorting", "why_tests_cant": "Whether two occurrences clash depends on pairs of tensors; equal sizes make the outcome of sorting arbitrary.", "anchors": ["SeQuant/core/export/reordering_context.cpp: ReorderingContext::rewrite"]}
{"id": "C93", "title": "num_closed_loops counts the loops that are free in a spin sum", "statement": "If the new pairs use each initial upper and each initial lower index once, num_closed_loops returns, and two to the power of its result is the number of spin assignments to the particles for which the two indices of each new pair have the same spin.", "quantifier": "all numbers of particles, all pairings and orders of the pairs", "why_tests_cant": "Each pairing takes another path through the chains; tests use three particles.", "anchors": ["SeQuant/domain/mbpt/antisymmetrizer.cpp: antisymm::num_closed_loops"]}
{"id": "C94", "title": "Spin summation of densities keeps the value", "statement": "max_similarity keeps the value and leaves as many initial pairs as possible; spin_sum multiplies each product by the number of spin assignments that suit it over eight.", "quantifier": "all sums of products of densities and operators, all antisymmetric interpretations", "why_tests_cant": "The exchange of indices, its sign and the number of loops depend on each other.", "anchors": ["SeQuant/domain/mbpt/antisymmetrizer.cpp: antisymm::max_similarity, antisymm::spin_sum"]}
{"id": "C95", "title": "Cumulants are replaced by what defines them", "statement": "cumu_to_density, cumu2_to_density and cumu3_to_density turn a cumulant into densities with the same value; one_body_sub and two_body_decomp subtract the averages.", "quantifier": "all indices and all values of densities", "why_tests_cant": "No test calls the functions one by one.", "anchors": ["SeQuant/domain/mbpt/rdm.cpp: cumu_to_density, cumu2_to_density, cumu3_to_density, one_body_sub, two_body_decomp"]}
{"id": "C96", "title": "Rewriting integrals as J and K keeps the value", "statement": "ITF export renames two-electron integrals to J or K and reorders their indices; two arrays exist so that each exported tensor has the value of the integral, and integrals that are equal by symmetry are exported the same way.", "quantifier": "all indices, spaces, memory layouts and all arrays with the eightfold symmetry", "why_tests_cant": "There are eight equivalent integrals, two names and orders of spaces by size; tests use a few.", "anchors": ["SeQuant/core/export/itf.cpp: ItfContext::rewrite", "SeQuant/core/export/reordering_context.cpp"]}
{"id": "C97", "title": "Index names in ITF export", "statement": "The names of two indices are the same exactly in described cases; for indices of one space names are different, and the text of a list of indices can be read in one way only.", "quantifier": "all spaces, base letters, ordinals and limits", "why_tests_cant": "Names depend on letters, limits and ordinals; collisions need certain numbers.", "anchors": ["SeQuant/core/export/itf.hpp: ItfGenerator::represent(Index)", "SeQuant/core/export/itf.cpp: 15-47"]}
{"id": "C98", "title": "Loops over batch indices in ITF export", "statement": "Each statement is written inside loops over exactly its batch indices, no statement is lost, all loops are closed at the end and the generator is clean for the next expression.", "quantifier": "all sequences of statements, all lists of batch indices, all numbers of fuseable loops", "why_tests_cant": "Loops are opened and closed depending on the loops of the statement before.", "anchors": ["SeQuant/core/export/itf.hpp: 414-471, 560-566", "SeQuant/core/export/itf.cpp: 241-279"]}
{"id": "C99", "title": "Calls of einsum compute the contraction", "statement": "Each label gets one letter, different labels get different letters, an exception is raised exactly if letters do not suffice, and the exported call of einsum evaluates at each element to the sum over the labels that the result does not have.", "quantifier": "all expressions without sums, labels, arrays and elements of the result", "why_tests_cant": "Letters depend on the order of all labels; there are 52 or 26 of them.", "anchors": ["SeQuant/core/export/python_einsum.hpp: get_einsum_index, tensor_to_einsum_subscript, to_einsum_expr, extract_einsum_components"]}
{"id": "C100", "title": "Exported Python text of scalars has the value of the expression", "statement": "Python evaluates the text of constants, powers, products and sums to the value of the expression if imaginary parts are integers and variables outside of powers are not conjugated.", "quantifier": "all nested expressions, all values of variables and arrays in all fields of characteristic zero", "why_tests_cant": "Precedence of operators, signs and fractions interact; tests compare text.", "anchors": ["SeQuant/core/export/python_einsum.hpp: represent, to_python_scalar_expr", "SeQuant/core/export/utils.cpp: format_power_base, format_power_exponent"]}
{"id": "C101", "title": "Names in exported Python code", "statement": "Labels become names of Python and names stay unchanged; tensors with the same name have the same label and the same spaces if labels are names without underscores and spaces have different tags of one byte.", "quantifier": "all labels, spaces and tags", "why_tests_cant": "Clashes need certain labels or spaces.", "anchors": ["SeQuant/core/export/python_einsum.hpp: sanitize_python_name, tensor_name, get_tag"]}
{"id": "C102", "title": "Topological reduction keeps one contraction of each kind with the number of its equivalents", "statement": "Of all full contractions that connect the partitions of operators equally often, the search with topology keeps exactly one, and its weight is the number of all of them; partitions given by the user are completed to a partition of all operators.", "quantifier": "all sequences of normal operators, partitions inside normal operators and numbers of operators", "why_tests_cant": "The number of contractions grows like factorials, and the filter depends on the path through the recursion.", "anchors": ["SeQuant/core/wick.hpp: set_op_partitions, is_topologically_unique, topological_degeneracy, compute_nontensor_wick, recursive_nontensor_wick"]}
{"id": "C103", "title": "Topological reduction does not change the result", "statement": "If the factor in front of the operators is antisymmetric (symmetric for bosons) under exchanges of operators of one partition, the weighted sum of the contractions kept by the reduction is the sum of all full contractions.", "quantifier": "all tensors, contractions, orbitals and partitions", "why_tests_cant": "The claim is about all tensors with the symmetry; signs of contractions and of the tensors have to cancel in each kind.", "anchors": ["SeQuant/core/wick.hpp: recursive_nontensor_wick, topological_degeneracy", "SeQuant/core/wick.impl.hpp: compute"]}
{"id": "C104", "title": "Partitions are the classes of operators that automorphisms link", "statement": "compute_partitions gives two vertices the same index exactly if automorphisms lead from one to the other, and what extract_partitions makes of it is accepted by set_op_partitions and puts exactly the linked operators into one partition.", "quantifier": "all lists of automorphisms, vertices, exclusions and ordinals", "why_tests_cant": "Merging of partitions depends on the order of the automorphisms and leaves gaps in the indices.", "anchors": ["SeQuant/core/wick.impl.hpp: compute_partitions, extract_partitions", "SeQuant/core/wick.hpp: set_op_partitions"]}
{"id": "C105", "title": "Vertices of different types never share a color", "statement": "Whatever is painted with whatever shades in whatever order, a painter gives two objects the same color only if they are of one type (tensors of one label, indices of one color, the same slot number, ...), gives the same object under the same shade the same color each time, gives tensors of one type the same color, and finds a color as long as fewer than 2^32 are in use, even if all hashes collide.", "quantifier": "all hash functions, all sequences of requests, all tensors, indices and slots", "why_tests_cant": "Collisions of 32-bit colors practically do not occur in tests, and the color found depends on the whole history of the painter.", "anchors": ["SeQuant/core/tensor_network/vertex_painter.cpp: VertexPainterImpl::operator(), may_have_same_color, ensure_uniqueness, apply_shade", "SeQuant/core/tensor_network/vertex_painter.hpp: VertexPainterImpl"]}
{"id": "C106", "title": "The registry of operators is a finite function shared by copies and not by clones", "statement": "After any sequence of constructions, copies, moves, clones, additions, removals and changes of hermiticity, on registries and on contexts holding them, every query has the answer it has for a function from labels to a class and an optional hermiticity: unregistered labels are rejected, reserved and registered ones cannot be added, a removed operator leaves no hermiticity behind, copies see changes and clones do not.", "quantifier": "all sequences of calls, labels, classes and hermiticities", "why_tests_cant": "Aliasing through two shared pointers has to be right for every interleaving of calls.", "anchors": ["SeQuant/domain/mbpt/op_registry.hpp: OpRegistry", "SeQuant/domain/mbpt/op_registry.cpp", "SeQuant/domain/mbpt/context.cpp: Context, make_minimal_registry, make_legacy_registry"]}
{"id": "C107", "title": "Connections asked for by labels reach the right normal operators", "statement": "expectation_value_impl asks Wick's theorem to connect (or not to connect) exactly the pairs of normal operators that come from operators whose labels form one of the pairs given, left one first; it screens only products of operators whose quantum numbers cannot vanish, and is linear in sums.", "quantifier": "all products of operators, normal operators, tensors and scalars, all lists of pairs of labels", "why_tests_cant": "Positions depend on all preceding factors; a wrong position silently drops or keeps diagrams.", "anchors": ["SeQuant/domain/mbpt/vac_av.cpp: lower_label_pairs, expectation_value_impl"]}
{"id": "C108", "title": "With the topological reduction Wick's theorem remains an identity of operators", "statement": "A sum over orbitals of tensors times a product of normal-ordered operators equals the weighted sum of the partially contracted summands that the search with topology makes, and its expectation value equals the weighted sum of the fully contracted ones, if the tensors are antisymmetric (symmetric for bosons) under exchanges of operators of one partition.", "quantifier": "all algebras with canonical (anti)commutation relations, tensors, orbitals, sequences of normal operators and partitions inside normal operators", "why_tests_cant": "The filter for partial contractions prunes by what was passed over earlier in the search; the weights must count exactly what was pruned, for every number of operators.", "anchors": ["SeQuant/core/wick.hpp: is_topologically_unique, topological_degeneracy, compute_nontensor_wick, recursive_nontensor_wick"]}
{"id": "C109", "title": "External indices are the open slots of an expression", "statement": "external_indices returns the indices that occur once, in their slots and grouped by columns; for symmetrized expressions it returns the indices of the symmetrizer with bra and ket exchanged, which are the same indices; a column symmetrizer with unpaired indices throws and different symmetrizers fail the assertion.", "quantifier": "all tensors, products and sums with any indices and symmetrizers", "why_tests_cant": "Spin tracing and biorthogonalization start from these groups; whether the symmetrizer and the tensors agree is not checked by the code.", "anchors": ["SeQuant/core/utility/indices.hpp: external_indices, get_bra_idx, get_ket_idx, as_index_group_view"]}
{"id": "C110", "title": "Indices are counted exactly and classified without overlap", "statement": "get_used_indices_with_counts counts every nonempty slot and every protoindex once; extract_indices divides the indices into external, noncovariant and plain dummy ones; tot_indices splits into outer and inner indices; the target indices of an intermediate are those that occur once or are needed later.", "quantifier": "all expressions of tensors, normal operators and scalars, all indices with protoindices", "why_tests_cant": "Which indices are summed over follows from these counts, in all combinations of slots and protoindices.", "anchors": ["SeQuant/core/utility/indices.hpp: get_used_indices_with_counts, get_used_indices, tot_indices", "SeQuant/core/wick.impl.hpp: WickTheorem::extract_indices", "SeQuant/core/eval/eval_expr.cpp: binarize"]}
{"id": "C111", "title": "Many-body operators are built with fresh indices, the right prefactor and matching quantum numbers", "statement": "OpMaker gives tensor and normal-ordered operator the same fresh, distinct indices in the spaces asked for; with the default normalization the operator is the sum in which every distinct string of elementary operators occurs once (spinor basis) or every tuple of pairs up to order (spin-free basis); the quantum numbers stored with an operator bound the numbers of creators and annihilators of its tensor form; T, Lambda, R, L contain exactly the ranks they should; parameters are accepted exactly if consistent.", "quantifier": "all ranks, spaces, normalizations, bases, dependences, batching parameters and all antisymmetric or pair-symmetric tensors over any finite set of states", "why_tests_cant": "The prefactor is right only if it is so for every rank and every tensor; screening by quantum numbers is wrong if any component of the tensor form is outside the bounds.", "anchors": ["SeQuant/domain/mbpt/op.hpp: OpMaker, OpParams::validate, Normalization", "SeQuant/domain/mbpt/op.cpp: OpMaker, mbpt::op, mbpt::op::tensor"]}
{"id": "C112", "title": "Required and avoided connections select exactly the sets of contractions that satisfy them", "statement": "With full contractions and lists of required and avoided pairs of normal operators, the Wick engine produces exactly those sets of contractions of the unconstrained search, in the same order and with the same phase, in which every required pair is joined by a contraction and no avoided pair is: pruning never loses one and never lets a wrong one through. The constraints are refused exactly if a pair is given twice or out of range.", "quantifier": "all sequences of normal operators with distinct elementary operators, all lists of required and avoided pairs, all contraction rules", "why_tests_cant": "The engine prunes the search by counting missing connections; a miscount loses terms for particular shapes only, and the number of shapes is unbounded.", "anchors": ["SeQuant/core/wick.hpp: set_nop_connections, set_nop_avoided_connections, connect, recursive_nontensor_wick"]}
{"id": "C113", "title": "Connected products give the nested commutators of coupled-cluster theory", "statement": "If each T consists of an even number of quasiparticle creators, the expectation value of a product containing H T1...Tk with every T required to be connected to H equals the expectation value with the nested commutator [...[H,T1],...,Tk], whatever stands to the left and right; summed with 1/k! over all products of the strings of T this is the similarity-transformed operator truncated at any order, and it vanishes if there are more T than elementary operators in H, so that four commutators suffice for a two-body Hamiltonian.", "quantifier": "all algebras with canonical (anti)commutation relations and a vacuum, all strings, all coefficients, all truncation orders, bosons and fermions", "why_tests_cant": "It is the claim on which CC, Lambda, EOM and density-matrix equations of the non-unitary ansatz rest (each commutator is written as a plain product); it is an identity of operators for all ranks.", "anchors": ["SeQuant/domain/mbpt/models/cc.cpp: hbar, t, rdm", "SeQuant/domain/mbpt/models/cc.hpp: notes on the connected form", "SeQuant/core/wick.hpp: set_nop_connections"]}
{"id": "C114", "title": "Screening does not change the coupled-cluster equations", "statement": "With screening, CC::t and CC::lambda average for every rank exactly those terms of the complete Hamiltonian that the test for that rank lets through, in their order, although terms are discarded rank by rank; every term that has a complete contraction with the projector passes; hence the equations are those without screening. If for some rank no term passes, a null pointer is used.", "quantifier": "all Hamiltonians (lists of products of operators with valid quantum numbers), all sets of base spaces, all ranges of ranks", "why_tests_cant": "A term lost at a high rank is missing in the equations of lower rank only for operators whose bounds behave differently there; tests run CCSD to CCSDTQ with one Hamiltonian.", "anchors": ["SeQuant/domain/mbpt/models/cc.cpp: CC::t, CC::\u03bb", "SeQuant/domain/mbpt/op.cpp: raises_vacuum_up_to_rank, raises_vacuum_to_rank, lowers_rank_or_lower_to_vacuum, lowers_rank_to_vacuum"]}
{"id": "C115", "title": "The default truncation of the commutator series drops only terms that vanish", "statement": "For the non-unitary ansatz the nested commutators beyond the default rank have vanishing matrix elements: rank 4 for a two-body Hamiltonian, 3 if one more operator of creators is commuted with it (Lambda equations, perturbed amplitudes), 2 and 4 for perturbations of rank 1 and 2, and min(2r, r+N) for a density matrix of rank r with Lambda of rank N.", "quantifier": "all algebras with canonical (anti)commutation relations and a vacuum, all operators, all numbers of cluster operators", "why_tests_cant": "A bound that is too low loses terms for particular ranks only; the bound for density matrices depends on two ranks.", "anchors": ["SeQuant/domain/mbpt/models/cc.cpp: CC::hbar, CC::\u03bb, CC::rdm, CC::t\u02bc, CC::\u03bb\u02bc"]}
{"id": "C116", "title": "Conversion of Unicode labels to LaTeX keeps every character", "statement": "utf_to_string replaces each Greek letter by its name and each character with a supported accent (combining mark or precomposed) by an accent macro, keeps all other characters and the order, and reads no character outside the string; narrow strings are kept if ASCII and refused otherwise.", "quantifier": "all strings over all character types", "why_tests_cant": "Labels in tests are one letter with at most one accent at the end; characters are lost, or read past the end, only if something follows an accent.", "anchors": ["SeQuant/core/io/latex/latex.cpp: greek_characters_to_string_impl, diactrics_to_string_impl", "SeQuant/core/io/latex/latex.hpp: utf_to_string"]}
{"id": "C117", "title": "Breaking the LaTeX of a sum into lines keeps all summands and the given limits", "statement": "to_latex_align returns all summands with their signs, each once and in order; lines start only before a sign, no line has more summands than allowed, no align block more lines than allowed, and no assertion of the loop fails.", "quantifier": "all sums, limits of lines and limits of summands", "why_tests_cant": "The loop patches three positions while it inserts text; tests compare a handful of outputs and do not reach the limits.", "anchors": ["SeQuant/core/expressions/expr_algorithms.cpp: to_latex_align", "SeQuant/core/expressions/sum.hpp: Sum::to_latex"]}
{"id": "C118", "title": "Permutation operators of an open-shell spin case complete the antisymmetrization", "statement": "For each number of beta indices the operators of open_shell_P_op_vector, applied with expand_P_op and followed by the antisymmetrization within the alpha and within the beta indices, antisymmetrize fully: every permutation of the bra and of the ket occurs once with its sign, and the normalization is right.", "quantifier": "all ranks, numbers of beta indices, external indices and products of tensors", "why_tests_cant": "Tests count the terms up to rank 5; permutations are missing from rank 6 on, and no test applies the operators of high rank to a product.", "anchors": ["SeQuant/domain/mbpt/spin.cpp: open_shell_P_op_vector, merge_tensors, P_maps, expand_P_op"]}
{"id": "C119", "title": "Partner indices and the factor for closed cycles in spin-free Wick's theorem", "statement": "make_target_partner_indices leaves exactly the pairs of uncontracted operators that are connected by pairs and contractions, in any order of the contractions; two to the number of closed cycles, the factor of a term, is the number of distributions of spins compatible with a full contraction, and then no pair is left.", "quantifier": "all lists of normal operators and all sets of contractions", "why_tests_cant": "Tests compare a few expressions with up to three operators; the number of contraction patterns grows factorially and the sum over spins is never made.", "anchors": ["SeQuant/core/wick.hpp: init_input, NontensorWickState::make_target_partner_indices, nontensor_wick"]}
{"id": "C120", "title": "Replacing an atom by its definition keeps the value", "statement": "If the replacement is the definition of the target (as a function of the indices in its slots), replace keeps the value of every expression, adapts the indices of each match, leaves expressions without a match as they are, and keeps the meaning of a ResultExpr.", "quantifier": "all expressions, targets, replacements and comparators", "why_tests_cant": "Tests replace in seven short inputs that are compared as text; a top-level match with other indices, captured summation indices and reordered results are not among them.", "anchors": ["SeQuant/core/utility/expr.hpp: replace", "SeQuant/core/utility/expr.cpp: transform_expr", "SeQuant/core/utility/tensor.hpp: TensorBlockComparator", "SeQuant/core/expressions/expr.hpp: Expr::visit"]}
{"id": "C121", "title": "Equations for perturbed amplitudes are derivatives", "statement": "CC::t\u02bc and CC::\u03bb\u02bc average the derivatives of the transformed Hamiltonian and of (1+\u039b)H\u0304 with respect to the strength of the perturbation, also with the default truncation; the connections they require give those averages; eom_r and eom_l project on every manifold once, without an access out of range.", "quantifier": "all operators, amplitudes, projectors and orders of truncation; all numbers of particles and holes", "why_tests_cant": "Tests count the terms of the equations for CCSD.", "anchors": ["SeQuant/domain/mbpt/models/cc.cpp: CC::t\u02bc", "SeQuant/domain/mbpt/models/cc.cpp: CC::\u03bb\u02bc", "SeQuant/domain/mbpt/models/cc.cpp: CC::eom_r", "SeQuant/domain/mbpt/models/cc.cpp: CC::eom_l"]}
{"id": "C122", "title": "is_valid accepts exactly the well-formed expressions", "statement": "is_valid accepts an expression exactly if no index occurs more than twice in a term and all terms of a sum have the same external indices in the same kinds of slots; a result exactly if its indices are the external ones; it gives an answer for every expression.", "quantifier": "all expressions and results", "why_tests_cant": "Tests check ten expressions and seven results.", "anchors": ["SeQuant/core/utility/expr.cpp: is_valid", "SeQuant/core/utility/indices.hpp: get_unique_indices"]}
{"id": "C123", "title": "The orders of tensors and operators are strict weak orders", "statement": "The comparisons that sort tensors, normal-ordered operators, many-body operators and blocks of tensors are irreflexive and transitive, and being incomparable is transitive; tensors of which neither is less are equal.", "quantifier": "all tensors and operators, all hash functions, all index spaces", "why_tests_cant": "Tests sort a few short lists; a comparison that is no order shows up only for special triples.", "anchors": ["SeQuant/core/expressions/tensor.hpp: Tensor::static_less_than", "SeQuant/core/op.hpp: NormalOperator::static_less_than", "SeQuant/domain/mbpt/op.ipp: Operator::static_less_than", "SeQuant/core/tensor_network/utils.hpp: TensorBlockCompare", "SeQuant/core/utility/tensor.hpp: TensorBlockLessThanComparator, IndexSpecificTensorBlockLessThanComparator"]}
{"id": "C124", "title": "The selection of largest terms loses nothing that the projection does not bring back", "statement": "WK_biorthogonalization_filter keeps exactly the terms with the largest coefficients among those with the same hash value; the weights of the projection onto what the overlap keeps are one for the identity and less for every other permutation; projecting what is kept gives the whole biorthogonal expression.", "quantifier": "every number of particles, all sums of terms, all actions of the permutations of external indices on terms", "why_tests_cant": "Tests compare a few coupled-cluster equations of rank three numerically.", "anchors": ["SeQuant/domain/mbpt/biorthogonalization.cpp: WK_biorthogonalization_filter_impl", "SeQuant/domain/mbpt/biorthogonalization.cpp: biorthogonal_transform_pre_nnsproject_impl", "SeQuant/domain/mbpt/biorthogonalization.cpp: compute_nns_p_coeffs"]}
{"id": "C125", "title": "Designated spaces, spin spaces and the predefined registries are consistent", "statement": "Designating a type of space (vacuum, reference, complete, hole, particle), by default or for particular quantum numbers, succeeds exactly if such a space is registered, and that space is then reported; adding spin adds to every space exactly one spin-up and one spin-down space with the same properties; every predefined registry can be built, and in it vacuum, reference, hole, particle and complete spaces fit together and questions about occupancy are answered correctly.", "quantifier": "all registries, types and maps of quantum numbers; all conventions, with and without spin", "why_tests_cant": "Tests load single conventions and never designate a space for particular quantum numbers.", "anchors": ["SeQuant/domain/mbpt/convention.cpp: add_fermi_spin, make_min_sr_spaces, make_sr_spaces, make_min_mr_spaces, make_mr_spaces, make_F12_sr_spaces, make_legacy_spaces, make_fermi_and_bose_spaces, add_ao_spaces, add_pao_spaces, add_df_spaces, add_batching_spaces, add_thc_spaces", "SeQuant/core/index_space_registry.hpp: IndexSpaceRegistry::vacuum_occupied_space, IndexSpaceRegistry::throw_if_missing_any, IndexSpaceRegistry::add_unIon, IndexSpaceRegistry::vacuum_unoccupied_space"]}
{"id": "C126", "title": "The textual difference of two expressions is empty exactly if they are equal", "statement": "diff returns an empty text exactly if the expressions are equal, for all expressions; it neither reads out of bounds nor aborts, and its text names what differs.", "quantifier": "all expressions, tensors, indices and spaces", "why_tests_cant": "No test calls diff, and its errors show only for particular kinds of differences.", "anchors": ["SeQuant/core/utility/expr.cpp: diff, toplevel_diff, diff_indices, diff_spaces"]}
{"id": "C127", "title": "Generated Julia code means what the expression means", "statement": "The Julia code generated for an expression has the value of the expression; different tensors have different names; every call of the generator adds complete lines to what was generated before and discards nothing until the next export.", "quantifier": "all expressions, tensors, tags and sequences of calls", "why_tests_cant": "Tests compare the generated code for a few expressions without conjugated variables, with tags of one letter, and never load a variable that is set to zero.", "anchors": ["SeQuant/core/export/julia_tensor_operations.hpp: JuliaTensorOperationsGenerator, to_julia_expr, tensor_name, zero_initialization", "SeQuant/core/export/julia_tensor_operations.cpp: JuliaTensorOperationsGeneratorContext::get_tags", "SeQuant/core/export/julia_tensor_kit.hpp: JuliaTensorKitGenerator::domain"]}
{"id": "C128", "title": "Conversions of strings lose nothing and refuse what they cannot convert", "statement": "Text converted to wide characters and back is unchanged; wide text is converted to the text it stands for or refused; string_to yields the number written in the whole text if it is in the range of the type and otherwise throws ConversionException.", "quantifier": "all texts, wide texts, bases and ranges of integral types", "why_tests_cant": "Tests of string_to use a handful of narrow texts; none uses wide text, characters outside the basic plane or lone surrogates, for which the conversion aborts, yields another character or throws another exception.", "anchors": ["SeQuant/core/utility/string.cpp: toUtf8, toUtf16", "SeQuant/core/utility/conversion.hpp: string_to, string_to_impl"]}
{"id": "C129", "title": "Shared counters and singletons work with any number of threads", "statement": "fetch_and_increment returns every value to at most one call and loses no increment; Singleton constructs at most one instance, all calls return it, and first calls from several threads are safe.", "quantifier": "all numbers of threads, all interleavings of their steps, all increments and spurious failures", "why_tests_cant": "A test sees a few of the interleavings that the scheduler happens to choose, and a data race need not show.", "anchors": ["SeQuant/core/utility/atomic.hpp: fetch_and_increment", "SeQuant/core/utility/singleton.hpp: Singleton::instance, set_instance, set_default_instance"]}

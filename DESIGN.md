# Formal model of SeQuant: design

## Trusted base

* The Lean 4.33.0 kernel.  No own axioms, no `sorry`, no `native_decide`, no `bv_decide`.
  Theorems may depend on the three standard axioms `propext`, `Classical.choice`, `Quot.sound` only.
* The correspondence between the C++ sources in `/repo/SeQuant` and the Lean definitions.  It was made by
  reading; every model definition cites the file and the lines it transcribes and says where it simplifies.
* Mathlib is used as a library of proved facts (rings, finite sets, permutations), imported module by module.

Layout of `lean/Verif`: `<Area>/Model.lean` holds the transcription of the code, `<Area>/Spec.lean` (when
needed) the independent specification, `<Area>/Lemmas.lean` auxiliary proofs, `<Area>/Props.lean` the
property theorems with concrete `example`s that instantiate their hypotheses.

General modelling conventions

* Machine integers are modelled by `Nat`/`Int`, or by `BitVec` where wrap-around matters (said in each comment).
* `SEQUANT_ASSERT` is a precondition; where a violated assertion matters, the model returns `none`/`error`.
* Undefined behaviour (out-of-range access, dereferencing an end iterator) is a distinct outcome (`none`).
* Shared pointers are modelled by values, except where aliasing is the point (C28), where a heap is modelled.
* Interpretations ("the value of an expression") are homomorphisms into an arbitrary, generally
  noncommutative, algebra.

## Plan per property

| id | model | method |
|----|-------|--------|
| C01 | `recursive_nontensor_wick` on lists of lists of ops, full contractions | algebra with CAR/CCR relations, induction on the number of ops |
| C02 | same function with `left_op_offset`, partial contractions | operator identity, induction |
| C03 | `normalize` phase | sign of list permutation in algebra of anticommuting symbols |
| C04 | `Operator::adjoint`, `NormalOperator::adjoint`, `Product/Sum::adjoint` | structural induction, star algebra |
| C05 | `commutes_with_atom` | refutation by witness, positive part for even-rank operators |
| C06 | `bubble_sort` with swap count | inversion-count measure, invariants |
| C07 | `next_permutation_parity` | lexicographic successor characterisation |
| C08 | `permutation_parity` | refutation by witness; corrected domain as partial |
| C09 | `count_cycles` | cycle decomposition |
| C10 | `bits::bipartitions`, `bits::subsets` | submask enumeration by bit arithmetic |
| C11-C17 | expression trees, constructors and visitors | evaluation homomorphism, structural induction, refutations where the code differs |
| C18 | 32-bit masks | `BitVec` bitwise laws |
| C19, C20 | registry as list of spaces plus memo fields | invariant over operation histories |
| C21, C23 | `Index` with proto indices | structural induction |
| C22 | atomic counter machine | invariant over all interleavings |
| C24, C25 | `FullBinaryNode` | zipper/stack machine refinement to recursion |
| C26 | cache entry automaton | invariant over histories |
| C27 | stack machine of `evaluate` | refinement to recursive evaluation |
| C28 | heap model of results | refutation by witness plus partial theorem |
| C29 | cost polynomials | evaluation homomorphism, lexicographic order, growth of leading terms |
| C30, C31, C32 | subset DP | optimal substructure by induction on subsets |
| C47 | frontier DP of `PeakModel` | frontiers cover all trees; memory machine |
| C33 | index counting functions | set characterisation |
| C34 | operation-queue rewriting | store semantics |
| C35, C36 | fusion, clustering | evaluation, permutation |
| C37 | locked table extension | invariant over all interleavings |
| C38 | Stern-Brocot search | invariant and termination measure |
| C39 | printer and backtracking reader on characters | round trip by induction, termination, refutations |
| C40 | scope stack | induction over nested histories |
| C41 | canonicalizer | sign representation |
| C42 | permutation generation | coset representatives |
| C43 | interval arithmetic | arithmetic |
| C48 | commutation test on quantum numbers | refutation by matrices |
| C49 | scope guards | histories of guards, counting |
| C50 | coefficients of `antisymm_element` | comparison of the two generated lists |
| C51 | slots of tensors | columns up to permutation |
| C52 | cycle count of `closed_shell_spintrace` | bijection between spin assignments and functions constant on cycles |
| C53, C54 | expansion of antisymmetric tensors and of `A`, `S`, `P` | sums over the symmetric group |
| C55 | spin cases of `spintrace` | bijection between bit patterns and spin assignments |
| C56 | evaluation trees of `binarize` | invariant of the fold over factors: indices, slots and value of each node |
| C57 | comparison of nodes for the cache | nodes of trees without sums are tensor networks; induction over two trees that compare equal |
| C58 | Hugenholtz vertices | representation invariant: the group of a kind holds the increasing list of its positions; every call keeps it |
| C59 | state kept with normal operators | invariant over histories of calls; refutations for stale hash and stale vertex |
| C60 | density fitting | values with a scope of summed indices per term; product of factors whose summed indices are not shared; induction over the loop |
| C61 | tensor hypercontraction | as C60 with two indices per tensor |
| C62 | cluster-specific virtuals | as C60; induction over the slots of a tensor, each linear in its coefficients |
| C63 | similarity transformation | values in a noncommutative algebra over a field; the loop keeps the k-th nested commutator over k!; binomial theorem for commuting left and right multiplications |
| C64 | screening | linear average; induction over the recursion |
| C65 | `pop_tensor` | invariant of both loops over tensors seen and kept; values by induction over the shape |
| C66 | topological stage of network canonicalization | value as a sum over assignments to anonymous indices; renaming as a bijection of assignments; slots by C51; exchanges of commuting tensors |
| C67 | whole canonicalization | composition of value-preserving steps; externals are invariant under renaming |
| C68 | input ordinals | loop invariant of the cycle-following loop |
| C69 | edges, external indices | counts of slots; sorted insertion |
| C70 | elimination of Kronecker deltas keeps the value | invariant of the replacement rules: at every assignment that satisfies the deltas the sources of a rule have one value, in the space of the destination; bijection of assignments |
| C71 | elimination terminates, is complete | number of deltas decreases; sources stay in one class |
| C72 | exported code computes the value | machine with memory and storage; preprocessing keeps the value and scopes names; invariant: counters = objects in memory |
| C73 | exported code uses memory properly | the same invariant, without any condition on the tree; exact count of what is never dropped |
| C74 | exported code declares what it uses | induction over the generation |
| C75 | expressions made from trees | induction over the tree with the scopes of indices; refutations |
| C76 | elimination keeps values | trees as assignments run in order; names hold the value of what they stand for; C57 for nodes that compare equal |
| C77 | order, positions, completeness of elimination | marked output list; trace of the search, counts of classes |
| C78 | extraction of subtrees | paths; visitor = declarative cut |
| C79 | batches of a mode | induction over the tiles |
| C80 | evaluation in batches | scratch cache as a family of right values per batch (position of the batch index decides slicing); trace of the counting walk; sum over the batches; layers; soundness in the sense of C27 |
| C81 | (anti)symmetrization of arrays | enumerations are sums over the symmetric group (C07); relabelling of modes |
| C82 | biorthogonalization coefficients | class functions on the symmetric group; tables checked in the kernel against the four equations of Moore and Penrose; rank as trace of the projector |
| C83 | projection of arrays | convolution of class functions acting on arrays |
| C84 | biorthogonal transformation | replacements particle by particle; sum over the symmetric group |
| C85 | replacement of indices | induction over expressions |
| C86 | memoization | invariant over all interleavings, pointers into the map with an epoch that insertions change |
| C87 | BTAS and TAPP results | elements as sums over assignments of labels, layouts by mixed radix; blocks of `batched_contract` placed by offset |
| C88 | TAPP handles | invariant over all programs of special member functions |
| C89, C90 | complex rationals, powers | embedding into ℂ, principal powers; repeated squaring by induction |
| C91 | stored hashes, order of powers | invariant over sequences of operations |
| C92 | reordering for a memory layout | undoing the reordering from the kind of a tensor; any sorting function |
| C93 | counting of closed loops | chains are cycles of a permutation; functions that are constant on cycles |
| C94, C95 | spin sums, cumulants | values in any algebra over ℚ |
| C96 | integrals in ITF export | case analysis over the swaps; arrays from symmetric ones by layout reordering (C92) |
| C97, C98 | names and loops in ITF export | characterization of equal names; interpreter of the emitted loop structure |
| C99 | letters and calls of `einsum` | injective renaming of labels commutes with nested sums |
| C100 | Python text of scalars | token machine with the precedence of Python; pieces, operands and sums |
| C101 | names in Python | reading of names at the underscore |
| C102 | topological reduction of full and partial contractions | both searches are counted by kind; the product of factorials satisfies the same recursion |
| C103 | value of the reduction | two contractions of one kind differ by a permutation inside the partitions, whose sign is the ratio of their phases |
| C104 | partitions from automorphisms | invariant of merging: equal indices are the equivalence generated by the pairs seen |
| C105 | colors of vertices | invariant of the painter: from the hash of every painted object a path of colors of others leads to its color |
| C106 | registry of operators | refinement: a relation between the heap of maps and a store of functions is kept by every call |
| C107 | connections by labels | invariant of the loop over the factors: positions of a label are those of its normal operators |
| C108 | Wick's theorem with topology | C01 and C02 in the algebra pulled back to ordinals, summed over orbitals, and C103 |
| C109 | external indices | closed form of the groups, C33 for products, the search for symmetrizers as a fold |
| C110 | counts of indices | counting is a fold over the list of occurrences |
| C111 | construction of many-body operators | sum over all tuples of a symmetric function = weighted sum over ordered tuples (orbits and stabilizers); C43 for the quantum numbers |
| C112 | required and avoided connections of the Wick engine | induction over the search: a set of contractions that satisfies the constraints never needs more partners than a normal operator has operators left, and an exhausted one has all it needs |
| C113 | linked form of coupled-cluster theory | inclusion and exclusion over the `T`s that are not connected to `H`; such a `T` moves to the left of `H`; C01 for every resulting product |
| C114 | screening in the coupled-cluster model | the bounds of a rank are within those of all higher ranks and `combine` is monotonic; what a complete contraction leaves for the projector is what the projector takes |
| C115 | truncation of the commutator series | C113 and counting: every `T` needs an operator of `H`, every creator of the `T`s one of the other operators |
| C116 | conversion of characters to LaTeX | closed form of the loops over base characters and their marks |
| C117 | line breaks in the LaTeX of a sum | invariant of the loop in terms of the rest of the text, then summand by summand |
| C118 | permutation operators of open-shell spin cases | representatives of the cosets of the permutations that keep spins; sums over the symmetric group |
| C119 | partner indices and closed cycles | counting of spin distributions; chains of pairs and contractions |
| C120 | replacing an atom by its definition | values of expressions for fixed values of the indices; substitution slot by slot |
| C121 | equations for perturbed amplitudes are derivatives | the coefficient of the first power in the ring of polynomials in the strength of the perturbation |
| C122 | what `is_valid` accepts | numbers of occurrences in the list of all slots of a term |
| C123 | which comparisons are strict weak orders | irreflexive, transitive, incomparability transitive |
| C124 | selection of the largest terms and projection | coefficients of terms as a function; permutations of external indices act on terms; sums over permutations |
| C125 | designated spaces, spin spaces, predefined registries | registry as a list; loop invariant of the search for missing entries; successive additions as pairwise distinct keys and attributes; the twelve registries by evaluation in the kernel |
| C126 | textual differences of expressions | outcomes text, undefined behaviour, abort; induction on expressions; equality of expressions decided structurally |
| C127 | Julia code | a reader of flat expressions as semantics of the generated symbols; unique splitting of names; prefix order on texts |
| C128 | strings | decoding inverts encoding of UTF-16 and conversely; texts of digits as numerals |
| C129 | threads | interleavings as runs of a step function on lists of events; invariants of all runs |
| C44, C45 | packed index, connect/disconnect | arithmetic, invariant |
| C46 | occupancy tests on masks | bitwise characterisation, refutation |

## What is modelled, area by area

| area | code | remarks |
|------|------|---------|
| Tensor | `DefaultTensorCanonicalizer::apply`, `TensorBlockCanonicalizer::apply` (`core/tensor_canonicalizer.*`), `Tensor::canonicalize_slots`, `_swap_bra_ket` (`core/expressions/tensor.hpp`) | comparators are parameters, tags enter through them only; labels and auxiliary indices are left out |
| Serial | `to_string`, grammar and conversions of `core/io/serialization/v1` | grammar as ordered choice with backtracking on characters; character classes, operator labels and known spaces are parameters; decimal fractions and exponents in numbers, nested proto indices and `ResultExpr` are left out |
| Bits | `core/utility/bits.hpp`, bipartition loops of the optimizer | unbounded naturals for masks |
| Sort | `bubble_sort`, zip comparator (`core/algorithm.hpp`) | loop with fuel, termination proved |
| Perm | `next_permutation_parity`, `permutation_parity`, `count_cycles` | |
| Wick | `recursive_nontensor_wick`, `normalize`, `uptri_idx`, `lowtri_idx`, `connect`, `disconnect`, `adjoint` and `commutes_with` of operators (`core/wick.hpp`, `core/op.hpp`) | operators abstract; contraction function and annihilation predicates are parameters with the relations a vacuum imposes; no topological reduction |
| Expression | `Product`, `Sum`, `Constant`: append, prepend, clone, constructors, operators; `expand`, `flatten`, `rapid_simplify`; `adjoint`; `HashingAccumulator`, `Sum(move_only)` (`core/expressions/*`) | leaves other than constants are atoms; scalars from any commutative ring; hash and equality are parameters |
| Space | `TypeAttr`, `QuantumNumbersAttr`, `Attr`, `IndexSpace` (`core/space.hpp`); `IndexSpaceRegistry`: add, remove, replace, clear, copy, clone, assignment, memoized base spaces, intersection, union, occupancy (`core/index_space_registry.hpp`) | 32-bit masks; keys from any linear order; a heap models registries that share their set; approximate sizes and per-quantum-number reference spaces are not modelled |
| Index | `Index`: `==`, `<=>`, hash, `transform`, `reset_tag` (`core/index.hpp`, `core/tag.hpp`); `next_tmp_index`, `make_tmp_index`, `reset_tmp_index`, `IndexFactory::make` as atomic steps of any number of threads | labels not modelled; tags hold `int`; sequentially consistent steps |
| Tree | `FullBinaryNode`: `visit` in three orders, `deep_copy`, copy and move construction, `transform_node`, destruction, `fold_left_to_node`, construction from a container (`core/binary_node.hpp`) | nodes on a heap with parent pointers; `digraph`, `tikz` not modelled |
| Eval | `CacheManager` and its entries (`core/eval/cache_manager.hpp`); the stack machine of `evaluate`, evaluation into a layout and of a sequence (`core/eval/eval.hpp`) | keys are classes of the comparator; backend, leaf evaluator, custom evaluator and product hook are parameters; that nodes with equal keys have equal phase x value is a hypothesis; sizes in bytes and logging not modelled; batched evaluation: area Batch |
| Optimize | `AsyCost` and its entries (`core/asy_cost.hpp`, `.cpp`); subset dynamic program, additive and peak model (`optimize/cost_model.hpp`), connectivity and open indices (`single_term_detail.hpp`, `utility/indices.hpp`), rebuilding of products (`single_term.hpp`, `optimize.cpp`); fusion of products (`fusion.cpp`); clustering and reordering of summands (`sum.cpp`) | rational prefactors, exact powers and exact costs instead of `double`; spaces from any linear order; `reverse(zip(a, b))` of range-v3 pairs from the back (its end iterator holds the end of each container); sequences given to the expression part are a parameter with the proved property `GoodSeq` |
| Export | `GenerationOptimizer` (`core/export/generation_optimizer.hpp`): queue, pairing, cache | objects up to the comparator used; expressions opaque; assertions active or not is a parameter; the meaning of the callbacks is that of their documentation (`generator.hpp:94-148`), persisting releases the memory as in `memory_action` |
| Math | `pow2`, `factorial` (`core/math.hpp`), `to_rational` (`core/rational.hpp`) | steps of threads are sequentially consistent; floating-point numbers are the rationals they denote, with exact sums and differences |
| Mbpt | `combine`, `adjoint`, constructors of quantum numbers, `apply_to`, `apply_to_vac`, `can_change_qns`, `commutes_with_atom` (`domain/mbpt/op.cpp`, `op.ipp`, `op.hpp`, `core/interval.hpp`); index arrangements and coefficients of `antisymm_element` (`antisymmetrizer.cpp`) | pairs instead of alternating lists; base spaces given by what the code asks about them; no overflow |
| Context | `Context` equality, default contexts and their scopes (`core/context.cpp`, `core/utility/context.hpp`), `scope_exit` (`core/utility/scope.hpp`) | settings lumped together, registries behind pointers; resetters live in properly nested blocks; no threads |
| Spin | `expand_antisymm`, `expand_A_op`, `symmetrize_expr`, `S_maps`, `expand_P_op`, `closed_shell_spintrace`, `spintrace`, `append_spin`, `remove_spin` (`domain/mbpt/spin.cpp`) | indices are abstract with order and spin, no proto-indices or empty slots, tags not modelled; `closed_shell_spintrace` from after `simplify` on |
| Binarize | `EvalExpr`, `binarize` of constants, variables, tensors, sums and products (`core/eval/eval_expr.*`) | no proto-indices, no `Power`; hashes and `canonicalize_slots` of networks are parameters (assumed: the canonical indices are the named ones); the backend operations are those of the annotations: contraction, permuted sum, conjugate |
| Binarize (comparison) | `TreeNodeEqualityComparator` (`core/eval/eval_node_compare.hpp`), `TensorBlockEqualComparator` (`core/utility/tensor.hpp`) | no specific indices; that equal canonical graphs mean equal networks up to phases is an assumption (`NetLaw`), satisfied by the instance `cmpCfg`; the cache and the evaluation are those of C27 |
| Vertex | `HugenholtzVertex` (`core/hugenholtz.hpp`), state of `NormalOperator` (`core/op.hpp`) | edges and operators abstract with an equivalence of kinds; no access through `_bra_mutable`/`_ket_mutable` (which, like `transform_indices`, do not reset the vertex) |
| Rules | `density_fit`, `tensor_hypercontract`, `csv_transform` (`domain/mbpt/rules/*.cpp`), `Product::append`, `Sum::append` | no empty slots; only antisymmetry of tensors kept; temporary indices come from a counter; the value of an index with proto-indices selects an entry together with the values of these ; `pop_tensor` (`core/utility/expr.cpp:474-537`) with equality of `ExprPtr` being equality of tensors |
| Lst | `lst`, `screen_vac_av` (`domain/mbpt/utils.cpp`) on the expressions of `Expression` | `simplify`, `transform_sum_expr`, `can_change_qns` are parameters; `adjoint(B)` is an expression given; values instead of shared objects |
| Network | `init_edges`, `canonicalize_graph`, `canonicalize` (`core/tensor_network/v3.cpp`), `apply_index_replacements`, `sort_then_replace_by_ordinals`, `sort_via_ordinals`, `tensors_commute`, `CanonicalTensorCompare` (`core/tensor_network/utils.hpp`), `IndexFactory`, `Index::transform` (`core/index.hpp`), `permute_*` (`core/expressions/abstract_tensor.hpp`) | the graph canonizer is an arbitrary function on vertices; proto-indices are symmetric and have none themselves (asserted); edges keep the number of their vertices; `std::sort`, `std::stable_sort` are insertion sorts; the assertion that tensors are sorted by blocks (631-632) is left out |
| Reduce | `index_repl_dst_t`, `compute_index_replacement_rules`, `apply_index_replacement_rules`, `reduce_wick_impl` (`core/wick.impl.hpp:34-649`); `IndexFactory::make(space)` (`core/index.hpp:1127-1148`) | no proto-indices; the product is a flat list of factors; a shared destination object is one class of sources; the set of noncovariant indices of each pass is a parameter; registry lookups are parameters (instantiated with the model of the registry in `registry_exact`) |
| Codegen | `PreprocessVisitor`, `prune_scalar_factor`, `may_prune`, `preprocess`, `track_usage`, `GenerationVisitor`, `export_expression` (`core/export/export.hpp:34-842`), `rename` (`core/export/export.cpp:17-66`), strategies of `ExportContext` (`core/export/context.cpp:85-231`), order of `visit` (`core/binary_node.hpp:148-219`) | labels are a stem and a number; blocks of tensors are numbers; no batch indices, no user-set strategies, `rewrite` is the identity; powers have a variable as base; the text the generators emit is not modelled, only the sequence of callbacks |
| Cse | `to_expr` (`core/eval/eval_expr.hpp:496-529`), `eliminate_common_subexpressions` (`core/optimize/common_subexpression_elimination.hpp`), `IndexSpecificTensorBlockEqualComparator` (`core/utility/tensor.hpp:87-147`), `binarize(ResultExpr)` (`core/eval/eval_expr.hpp:442-491`), `extract_subtrees` (`core/optimize/extract_subtrees.hpp`) | as for Binarize; a hash table is the list of its entries; user-supplied predicates are pure functions; the vector that trees are inserted into is a list (capacity: `eliminate_capacity`) |
| Batch | `mode_batches`, `slice_mode` (`core/eval/backends/tiledarray/result.hpp:354-396, 435-455`), `make_batched_custom_evaluator` and helpers (`core/eval/eval.hpp:423-493, 1113-1408`) | arrays are functions with shapes; arrays of arrays, scope guards, screening and logging are left out; key nodes of the cache are a fixed list; the hash table of the counting walk is the list of its entries; tree keys are abstract with the conditions in `KeyOK`, `BatchOK` |
| Symm | `symmetric_permutation`, `antisymmetric_permutation` (`core/eval/result.hpp:46-133`), symmetrization in `core/eval/backends/{tiledarray,btas,tapp}/result.hpp` | exact field instead of floating point; no tiles; inner arrays have one shape; content of new BTAS arrays is a parameter |
| Biorth | `domain/mbpt/biorthogonalization{.hpp,.cpp}`, `transform_expr` (`core/utility/expr.cpp:417-472`) | libperm: ranks after Myrvold and Ruskey, either direction of images and of products; exact pseudoinverse instead of Eigen's; pairings sorted already and ranks of the permutations between results given; no simplification of the result |
| Memo | `memoize` (`core/utility/memoize.hpp:25-53`) on `boost::container::flat_map` (`core/container.hpp:33`) | steps are the parts between operations of the mutex; spurious wake-ups possible; insertion either moves to a new block or shifts the entries behind |
| Dense | `batch_indices`, `batched_contract`, `ResultTensorBTAS` (`core/eval/backends/btas/result.hpp`), `TAPPTensor`, the operations and `ResultTensorTAPP` (`core/eval/backends/tapp/{tensor,ops,result}.hpp`) | `btas::permute`, `btas::contract`, `btas::dot` and `TAPP_execute_product` by their documented behaviour; elements in a commutative semiring; `btas::dot` without conjugation |
| Scalar | `Complex<rational>` (`core/complex.hpp`), `Power` (`core/expressions/power.hpp`), `memoizing_hash` of `Constant`, `Variable`, `Power` | labels are numbers; hash functions are arbitrary; a base is changed only by functions of the power that owns it |
| Layout | `ReorderingContext` (`core/export/reordering_context.cpp`) | no empty slots; `std::sort` is any function that sorts |
| Rdm | `num_closed_loops`, `max_similarity`, `spin_sum` (`domain/mbpt/antisymmetrizer.cpp`), conversion of cumulants (`domain/mbpt/rdm.cpp:5-135`) | indices are labels; `simplify` and `antisymmetrize` are parameters; `three_body_decomp` and what follows it are not modelled |
| Itf | `ItfContext::rewrite` and batching, index names (`core/export/itf.cpp`, `core/export/itf.hpp:145-193, 414-471, 560-566`) | text is a list of events; the rest of the statements is opaque; sizes of spaces are a function |
| Einsum | Python generators (`core/export/python_einsum.hpp:78-85, 175-211, 318-393, 395-624`), `core/export/utils.cpp:16-42` | text is a list of tokens; Python arithmetic and `einsum` are modelled as documented, without floating point and broadcasting; statements for files, zeros and deletion are not modelled |
| Topology | topological reduction of Wick's theorem (`core/wick.hpp:426-484, 1180-1238, 1294-1474`; `core/wick.impl.hpp:971-1118`) | operators are their ordinals; automorphisms are given (bliss is not modelled), and so is which pairs of vertices are excluded |
| Uncontr | the same with partial contractions (`core/wick.hpp:1180-1238, 1244-1647`, `full_contractions_ == false`) | no connectivity constraints; spin-free factors and `normalize` are in areas Rdm and Wick |
| Named | `external_indices`, `get_used_indices_with_counts`, `tot_indices` (`core/utility/indices.hpp:271-420, 458-744`), `extract_indices` (`core/wick.impl.hpp:662-702`), `target_indices` (`core/eval/eval_expr.cpp:543-560`) | labels reduced to their kind; maps are lists of entries; indices abstract with their protoindices |
| Maker | `OpMaker`, `OpParams::validate`, `Normalization` (`domain/mbpt/op.hpp:98-121, 572-880`), the operators of `mbpt::op` and `mbpt::op::tensor` (`domain/mbpt/op.cpp:461-1260`) | spaces abstract; proto-indices not sorted; counter of temporaries does not overflow; presence in the registry and containment of unoccupied states not checked; perturbation order only as a number |
| Linked | `set_nop_connections`, `set_nop_avoided_connections`, `recursive_nontensor_wick` with `connect` (`core/wick.hpp:202-358, 963-1092, 1180-1647`) | bookkeeping of `connect` is that of area Wick; each branch of the search has its own state (C45: `disconnect` restores it); no user-defined partitions of operators |
| Cc | `CC::t`, `CC::λ`, the default truncations in `CC::hbar`, `CC::λ`, `CC::tʼ`, `CC::λʼ`, `CC::rdm` (`domain/mbpt/models/cc.cpp:68-335`), the four predicates on ranks (`domain/mbpt/op.cpp:1305-1328`) | a term is a list of quantum numbers; the average is a function of rank and terms; the Hamiltonian is a sum |
| Cc (Response) | the operators averaged in `CC::tʼ` and `CC::λʼ`, the loops of `CC::eom_r` and `CC::eom_l` (`domain/mbpt/models/cc.cpp:253-276, 312-332, 395-411, 440-455`) | traditional ansatz; elements of an algebra; a connected product is a commutator (area Linked); no frequency terms |
| Latex | `greek_characters_to_string_impl`, `diactrics_to_string_impl`, `utf_to_string` (`core/io/latex/latex.cpp:67-285`, `latex.hpp:182-196`) | characters are natural numbers; a type of characters is narrow or wide; the two maps per accent are one list; an iterator past the end is the outcome `ub` |
| Latex (Align) | `to_latex_align` (`core/expressions/expr_algorithms.cpp:22-80`), `Sum::to_latex` (`sum.hpp:226-247`) | the LaTeX of a summand is any string; `npos` is `none`; failed assertions are `throws`, division by zero is `ub`; fuel for the loop, proved sufficient |
| OpenShell | `open_shell_P_op_vector`, `merge_tensors` (`domain/mbpt/spin.cpp:1228-1235, 1267-1367`); `expand_P_op` is that of area Spin | positions are `Fin n`; `expand` of the product of two sums is the list of all products of summands; the antisymmetrization within a spin (`open_shell_A_op` and `simplify` in `open_shell_CC_spintrace`) is specified, not modelled |
| Partners | partner indices of `init_input`, `make_target_partner_indices` and the factor `1 << ncycles` (`core/wick.hpp:687-709, 863-920, 1539-1549, 1572-1576`) | an operator is its action and index; the shift is a power of two without overflow; the contractions are any list |
| Replace | `replace` for expressions and results, `transform_expr` (scaling factor 1), `Expr::visit` (mutating, atoms only), `Sum::append`, `Product::append` for atoms, `TensorBlockEqualComparator` (`core/utility/expr.hpp:95-213`, `core/utility/expr.cpp:417-472`, `core/expressions/expr.hpp:393-422`, `core/expressions/sum.hpp:127-151`, `core/expressions/product.hpp:152-164`, `core/utility/tensor.hpp:22-79`) | no proto-indices, no empty slots, no shared subexpressions; renaming is simultaneous (area Index); memoized hash values and the partly modified expression after an exception are left out |
| Valid | `is_valid` for expressions and results (`core/utility/expr.cpp:290-413`) | scalars are reduced to their denominators; the symmetrizer of a result is removed beforehand; `get_unique_indices` is in area Optimize |
| Orders | the orders of tensors, normal-ordered operators, many-body operators, spaces and blocks of tensors (`core/expressions/tensor.hpp:855-893`, `core/op.hpp:750-797`, `domain/mbpt/op.ipp:86-120`, `core/space.hpp:586-608`, `core/tensor_network/utils.hpp:39-77`, `core/utility/tensor.hpp:22-133`) | labels and indices are elements of linear orders; hash functions are parameters; comparison of addresses left out |
| Wk | `WK_biorthogonalization_filter_impl` (`domain/mbpt/biorthogonalization.cpp:576-623`) | a product is its scalar and the rest; hash value of the network and absolute value of scalars are parameters; the expression that `biorthogonal_transform_pre_nnsproject_impl` (638-674) passes on is specified as the average over permutations of particles (`S_maps`, C54) of the sum over permutations with weights (C84) |
| Conv | designations, `add`, `add_unIon`, approximate size and field of `IndexSpaceRegistry` (`core/index_space_registry.hpp:294-527, 902-944, 1004-1340, 1399-1553`); `domain/mbpt/convention.cpp` | spaces in the order of addition instead of the order of keys; labels are keys; `load` without the context; `add_intersection` is in `Conv/Sizes.lean` |
| Diff | `diff`, `toplevel_diff`, `diff_indices`, `diff_spaces` (`core/utility/expr.cpp:21-289`), comparison of expressions and indices | texts of scalars, ordinals and symmetries are parameters or numbers; names of types left out of the text; hash values not compared; within tensors what is said about two indices is a parameter, `Diff/Index.lean` models it with proto-indices as a parameter |
| Julia | `JuliaTensorOperationsGenerator` (`core/export/julia_tensor_operations.hpp:52-356`, `.cpp:39-48`), `JuliaTensorKitGenerator::domain` (`core/export/julia_tensor_kit.hpp:76-100`) | constants, tensors and powers are single symbols; values at one assignment of the indices; the rest of the generators for ITensor and TensorKit is left out |
| Strs | `toUtf8`, `toUtf16` (`core/utility/string.cpp:12-32`), `string_to` for integers (`core/utility/conversion.hpp:24-57, 79-103`) | UTF-8 text is the list of its code points (malformed UTF-8 is left out); utfcpp, which is not part of the repository, and `std::from_chars` are assumed to follow the definition of UTF-16 and the C++ standard; `wchar_t` has more than 16 bits, `char` is signed |
| Conc | `fetch_and_increment` (`core/utility/atomic.hpp:13-25`), `Singleton` (`core/utility/singleton.hpp:58-67, 88-102, 121-127`) | sequentially consistent memory; counters wrap around (signed overflow is not told apart); constructors do not throw; singletons are default-constructible; `instance_ptr` is left out |
| Painter | colors of vertices (`core/tensor_network/vertex_painter.hpp`, `vertex_painter.cpp`) | hash functions, colors of spaces and bundles are arbitrary; 64-bit hashes truncated to 32 bits |
| Registry | operators and contexts of many-body theory (`domain/mbpt/op_registry.hpp`, `op_registry.cpp`, `context.cpp`) | maps are sorted lists in a heap; reference counts are not modelled |
| VacAv | expectation values (`domain/mbpt/vac_av.cpp:23-158`) | Wick's theorem, lowering, expansion and screening are parameters |

## Axioms

`vcheck` lists the axioms of every theorem; all property theorems depend on a subset of `propext`,
`Classical.choice`, `Quot.sound`.

## Discrepancies between the code and the properties

* C04: the adjoint of an expression rebuilds products with recursive flattening, so taking the adjoint of a product inside a product
  twice gives a flat product (`adjoint_adjoint_nested`); the value is right.
* C05: `NormalOperator::commutes_with_atom` looks only for contractions of this with that, not of that with this, and ignores the sign
  of exchanging odd fermionic strings (`commutesWith_asymmetric`, `commutesWith_odd`).
* C08: `permutation_parity` (core/math/permutation) counts fixed points as transpositions: the identity on one element is reported
  odd (`permutationParity_wrong`), and the input is not restored.
* C06: with a reflexive comparator (`<=`), which the header note allows, `bubble_sort` does not terminate on equal neighbours
  (`bubbleSort_nonstrict_diverges`).
* C14: `Product::prepend` of a product reverses its factors when flattening (`product_prepend_reverses`) and counts its scalar twice
  with `Flatten::No` (`product_prepend_scalar_twice`).
* C15: `p *= p` iterates over the vector it appends to; after the reallocation dangling pointers are read
  (`product_self_append_ub`).
* C16: `proportional_to` takes any two constants for proportional, so colliding hashes make 1 and 2 add up to 4
  (`accumulate_collision`); the stored object is the caller's, so appending one product three times gives 4 times the term
  (`accumulate_alias`); two different constants lead into the next item (`accumulate_two_constants`).
* C17: after erasing an element the loop of `Sum(summands&&, move_only_tag)` skips one; if the erased element was the last, it steps
  past the end (`moveOnly_undefined`); otherwise the remembered position of the constant can be wrong (`moveOnly_wrong_index`).
* C18: `operator~` passes the complement, whose top bit is set, to a constructor that asserts it clear (`maskCompl_fails`); the reserved
  type does not include itself (`reserved_includes_fails`); `<=>` and `==` of `IndexSpace` disagree (`space_cmp_eq_not_eq`).
* C19: `clear()`, assignment and `physical_particle_attribute_mask(m)` do not reset the memoized base spaces (`clear_stale`,
  `assign_stale`, `mask_stale`); copies share the set but not the memoized data (`copy_stale`); `unique` before `sort` leaves duplicates
  (`types_duplicate`); a `replace` that throws has removed the space (`replace_loses`).
* C20: `intersection` takes the quantum numbers of its first argument (`regInter_not_comm`); `valid_unIon` (`validUnion_wrong`).
* C46: `is_pure_occupied` compares the type masks with integer `<=` (`pureOccupied_wrong`).
* C21: after replacing proto-indices `transform` looks the new index up again, so an index can be replaced twice (`transform_chain`);
  a second pass transforms the proto-indices of an image (`transform_twice_changes`).
* C22: `reset_tmp_index` and wrap-around repeat ordinals (`tmp_reset_repeats`, `tmp_wraps`); `IndexFactory::make` evaluates
  `counters_.begin()` outside the lock (`factory_data_race`).
* C23: `<=>` of indices compares tags only if both are present, which breaks transitivity (`index_order_cycle`); indices of unequal spaces
  with the same attributes compare equal (`index_cmp_eq_not_eq`) or both greater (`index_cmp_gt_both`).
* C24 holds for trees visited at their root; calling `visit` on an internal node that has a parent fails the assertion at binary_node.hpp:200
  (`visit_subtree_fails`), and on a leaf that has a parent it goes on to the ancestors (`visit_leaf_escapes`).
* C26: a count above 2^32 is truncated by a conversion to `int`, so the value may be released early (`entry_overflow`); a count of 0 acts
  like 1 for every store (`entry_zero`).
* C28: without a layout, the first result of a sequence may be the object kept in the cache or by the leaf evaluator; adding the other terms
  in place changes it (`sequence_disturbs_cache`, `sequence_disturbs_leaf`).
* C29: a cost without extents is dropped (`constant_dropped`); zero is smaller than a negative cost (`negative_cost_order`); a multiple by
  zero is not the zero cost (`scale_zero_not_zero`); the difference of two infinite costs is zero (`max_minus_max`).
* C30: the default pruning of outer products can miss the cheapest order: 60 instead of 44 operations for three tensors
  (`singleTermSeq_pruning_not_optimal`).
* C31: the scalar of a scalar product kept as a factor is counted twice (`singleTermExpr_scalar_twice`); a product of three or more factors
  with one tensor fails an assertion, with none it reads the top of an empty stack (`singleTermExpr_one_tensor`, `singleTermExpr_no_tensor`).
* C33: an index of the result all of whose slots lie in the subset, more than once, is dropped (`subsetTargets_drops_target`);
  `get_unique_indices` of a product reports an index that is repeated in one factor and occurs in another (`uniqProduct_triple`), of a sum it
  looks only at the first summand (`uniqSum_first`).
* C34: erasing a release and a later allocation of the same object drops a `persist` (`optimize_drops_persist`), a zero initialisation
  (`optimize_drops_zero`) or the discarding of a changed value (`optimize_keeps_dirty`); indices of later pairs are reduced by two even if
  only one erased operation precedes them, so `R += A B; R += B A` fails an assertion (`optimize_rejects`) or, without assertions, loses a
  computation (`optimize_erases_compute`); `m_queue.size() - 1` wraps around for empty queues (`optimize_empty`).
* C35: two products with scalar zero and a common factor divide by zero (`fuse_zero`); complex scalars fail an assertion.
* C36: no violation, but clusters are not the connected components of the sharing relation (`clusters_not_components`); a nested sum fails
  the assertion on the size (`reorder_nested`).
* C38: 1000 rounds of the Stern-Brocot search do not suffice for the default precision: `to_rational(0.0002)` throws (`toRational_throws`);
  negative `eps` always throws (`toRational_negative`).
* C43: `generic_excitation_qns` asks whether the particle space *of the registry* is a base space, so an operator with a creator in a composite
  space gets a lower bound of one for each base space of it (`excitation_composite`) and contributing products are screened out
  (`composite_screened`); for the physical vacuum the ranks are exchanged (`genericExcitation_physical_swapped`).
* C48: operators are taken to commute if the combined intervals agree, which is so for any two operators of equal quantum numbers and for general
  operators like `F` and `V` (`commutesOp_wrong`, `commutesOp_general`).
* C40: `set_scoped_default_context` of contexts equal to the current ones returns an empty resetter, so changes made inside the scope survive
  (`scope_equal_leaks`); equality looks at the set of spaces only, which copies of a registry share, so a context with other vacuum or reference
  spaces is silently not set (`scope_ignores_designations`); contexts without registry are compared through null pointers (`scope_null_ub`);
  registries are shared, so their changes inside a scope survive (`scope_registry_leaks`).
* C49: the defaulted move constructor of `scope_exit` leaves the source armed (`guard_move_twice`).
* C50: `antisymm_element` ignores the scalar of the product (`elementTerms_drops_scalar`).
* C51: `canonicalize_slots` drops empty bra slots beside unpaired ket indices but keeps empty ket slots beside unpaired bra indices, so tensors
  with the same columns differ (`slots_not_unique`).
* C39: the text of an imaginary constant lacks the imaginary unit (`roundtrip_fails_imaginary`), that of a complex one is read with a variable `i`
  (`roundtrip_fails_complex`); a sum in a sum is written twice (`roundtrip_fails_nested`); a product without factors and scalar
  has an empty text, whose `front()` is undefined (`roundtrip_fails_empty`); names starting with `nan` or `inf` are read as numbers
  (`roundtrip_fails_inf`); numbers pass through `double` (`roundtrip_fails_large`); empty slots, missing and large ordinals cannot be read
  (`roundtrip_fails_slots`); tensors labelled like normal operators become operators (`roundtrip_fails_label`); without annotation
  symmetries are lost (`roundtrip_fails_symmetry`); a name of several letters before `_{` is split into factors (`read_splits_subscript`).
* C52: tensors must be nonsymmetric with complete columns and without auxiliary indices, external groups disjoint pairs, the columns of
  symmetrizers external groups; canonicalization before the count is not modelled.
* C53: the bra indices are collected in a set, so an antisymmetric tensor with a repeated index, which is zero, becomes a nonzero tensor
  of lower rank (`expandAntisymm_repeated_violated`); the theorem is for distinct bra and distinct ket indices.
* C54: a factor that is a sum is not antisymmetrized (`expandA_nested_violated`); of two antisymmetrizers only one is expanded but both are
  removed (`expandA_two_violated`); two permutation tensors give the sum instead of the product of the exchanges (`expandP_two_violated`);
  `S_maps` drops summands that are variables (`sMaps_variable_violated`); `symmetrize_expr` throws for unequal ranks
  (`symmetrize_unequal_throws`).
* C55: with spin-free index spaces, nonsymmetric tensors are only checked for equal numbers of α in bra and ket, so exchange integrals get a
  factor 4 instead of 2 (`spintrace_nonsymm_violated`); auxiliary indices are given spins, which multiplies the trace, and keep the labels
  (`spintrace_aux_violated`); the empty sum gives a null pointer (`spintrace_empty_violated`); 64 groups pass the check on line 1772 but not
  that in `pow2` (`traceProduct_64_violated`).  The theorems are for the other cases; symmetric tensors are not covered.
* C56: a leaf is replaced by its block-canonical form but the sign is not applied when it is evaluated, so an antisymmetric tensor with
  its bra (or ket) indices in another order than that of the spaces evaluates to its negative (`leaf_sign_lost`, `binarize_value_violated`); a tensor
  with a repeated index that is not multiplied by another tensor is not traced (`binarize_trace_violated`).  The hash of a node of a sum omits the last
  summand (`imedHashLazy`), which only makes collisions likelier.

* C57: nodes of sums are compared child by child, so `A{i;j} + B{i;j}` and `A{i;j} + B{j;i}` with indices of one space compare equal
  (`same_sum_violated`); the block comparison does not see where the bra ends, so `t⁺{1,2;3}` and `t⁺{1;2,3}` compare equal
  (`same_adjoint_violated`; harmless without the adjoint); products with a scalar network drop its phase (`same_phase_violated`); the operation of a
  node is not compared, only its hash tells `x + y` from `x y` (`same_op_collision`).
* C59: `erase` and `insert` of `NormalOperator` do not reset the memoized hash value, the assertion in `memoizing_hash` fails on the next use
  (`erase_hash_violated`); `transform_indices` does not reset the Hugenholtz vertex, so after an index is replaced by one of another space the groups
  are out of date and erasing the operator fails an assertion (`transform_hug_violated`).
* C60: the numbers of the new indices start from 1 in each product and are not checked against indices already there; fitting `g w g` first for `g`, then
  for `w`, uses one index for two summations (`df_twice_violated`).
* C61: in a product, a tensor with the label but another rank than 2 fails an assertion; alone it is left unchanged (`thc_rank_violated`).
* C62: for an orthonormal basis, the overlap of two virtuals uses the virtual with the lower ordinal without its proto-indices as summation index; two
  overlaps with a common virtual then share the summation (`csv_overlap_violated`).  A tensor with proto-indices only on auxiliary indices gives a null
  pointer, in a sum a failed assertion (`csv_null_violated`).
* C63: in the connected form a lone variable or constant is returned unchanged (it has no connected products), but a product of
  scalars, e.g. `2 v`, is multiplied by the generator like an operator (`lst_connected_scalar`).
* C65: `pop_tensor` marks removed tensors by the constant 0: the tensor alone or a multiple of it leaves 0 instead of the factor (`pop_alone`), and such
  a term disappears from sums (`pop_alone_term`); a product without factors becomes 0 (`pop_scalar_product`).  A tensor occurring twice is removed twice
  (`pop_twice`).  Terms without the tensor are accepted before the first term with it but fail an assertion after it (`pop_order`).
* C66: an anonymous index mapped to itself is left out of `idxrepl` (v3.cpp:368), hence not tagged; once its proto-indices have been replaced it may equal
  the key of another index and is replaced a second time: two summation indices become one (`canonGraph_refuted`).  Named indices given by the caller
  without the proto-indices that are in no slot: a fresh index captures the proto-index (`canonGraph_capture`).
* C67: the loop over anonymous edges starts at `named_indices.size()` (v3.cpp:605), but named indices need not be in slots (proto-indices, or indices
  given by the caller): an anonymous edge is passed over, and the next one is given its name (`canonicalize_refuted`).  `CanonicalTensorCompare` is not a
  strict weak order in general (`tcmp_refuted`), as `std::stable_sort` requires.
* C68: the loop of `sort_via_ordinals` turns the ordinals into the identity before returning them (`sort_via_ordinals_refuted`); `tensor_input_ordinals()`
  is wrong after the topological stage (`canonGraph_ordinals_refuted`); the final `std::stable_sort` does not move the ordinals either.
* Also seen in `v3.cpp`: `do_individual_canonicalization` looks up a nondefault canonicalizer but applies the default one; named indices are by default a
  reference to `ext_indices_`, which `init_edges` overwrites.

* C70: closed loops of deltas become 1 instead of the number of orbitals (`reduce_loop_refuted`); an external index that does not occur in the product but is named like a temporary one is captured (`reduce_external_refuted`); `intersection` of spaces with overlapping quantum numbers is too large, so a sum over one spin becomes a sum over both (`reduce_spin_refuted`).
* C71: `update_rule` keeps the old destination if the spaces agree, so a delta between an internal and an external index of the same space can survive (`reduce_incomplete`); `pass_mutated &= …` (wick.impl.hpp:480) never records that indices were replaced.

* C72: a scalar factor pruned onto a sum with a non-leaf operand is lost (`process_computation` returns early, export.hpp:245-248; `Sample.export_loses_scalar`); the strategy `AlwaysZero` of a reused intermediate makes every non-leaf operand of a sum zero the sum accumulated so far (export.hpp:152-154, 477-495; `Sample.export_zeroes_partial_sum`); `canon_phase` of leaves is ignored (`Sample.export_ignores_phase`); adjoints are exported without conjugation (`Sample.export_ignores_conjugation`, documented in the code).
* C73: a sum with two internal operands never drops them, so the object of a sum inside a product stays in memory (`Sample.export_leaks`).

* C75: `to_expr` flattens a sum into a product when it is scaled, `2 (x + y)` becomes `2 x y` (`toExpr_sum_violated`); it drops a scaled variable, `2 x` becomes `2` (`toExpr_var_violated`); the inner one of two nested scalars is lost (`toExpr_scalar_violated`); a product of two constants fails an assertion (`toExpr_consts_fails`).
* C76: the definition of a subexpression with canonical phase -1 has the value of the subexpression itself, but each use is multiplied by the phase, so results change sign (`eliminate_sign_violated`).
* C77: a subexpression whose first occurrence is inside a larger common subexpression may be defined and used once only (`used_once`).
* C78: extract_subtrees.hpp:49-50 says that matching descendants of a captured subtree are not extracted again; they are, when the predicate fails in between (`nested_extracted`). A predicate that looks below the children sees trees that subtrees were already taken from (`deep_predicate`).

* C80: eval.hpp:1152-1156 says that the axis, contracted at the root of a member, is free in every subtree with a leaf that carries it. This fails when the name of the axis is used again for a contraction below: leaves are sliced by name, so the inner sum runs over one batch only and the result is wrong (`nested_dummy_violated`). The batched evaluator also ignores the `shaped_product_hook` of the cache it replaces.

* C81: `particle_antisymmetrize_btas` (btas/result.hpp:94) adds to an array that was constructed from a range and, unlike in the two other functions of this kind, not filled with zeros; the result is right only if BTAS does so (`antisymmetrizeBtas_fresh`).

* C82: `make_hardcoded_biorthogonalizer_matrix` (biorthogonalization.cpp:141-158) fills row `r` from the product of the permutations numbered `n! - 1 - r` and `c`; this is the right row for the first and the last only. For three to five particles the matrix is not the normalized pseudoinverse (`hardMatrix_wrong`): its diagonal is not constant. One result uses only the last row; several results use other rows.
* C84: `create_expr_for` (biorthogonalization.cpp:339-372) replaces, particle by particle, the second index if the spaces agree and the first one otherwise; for permutations with cycles of length three through different spaces the replacements overlap and two particles get the same index (`replacements_wrong`). The exact condition is `replacements_correct_iff`.
* C84: without external index groups (the default argument) `biorthogonal_transform` always throws, since there are no coefficients for zero particles (`transformSingle_empty`).

* C86: `memoize` keeps an iterator while it waits and returns a reference into a `flat_map`. Insertion of another key makes both invalid, also in one thread: the reference from a first call dangles or shows the value of another key after a second call (`stale_dangles`, `stale_wrong`, `wait_wrong`). The coefficients of C82 and the weights of C83 are handed out this way.
* C86: when the function throws, the empty entry stays and every later call with that key waits forever (`thrown_hangs`, `single_thrown`).

* C87: `batched_contract` does not sum over a label that one factor has alone; it takes the first element of a slice when the other slice has no labels (`lonely_label`). Annotations of binarized products have no such labels.
* C87: `ResultTensorBTAS::size_in_bytes` multiplies the volume by the size of the array object, not of an element (`sizeBtas_right_iff`).
* C87: the TAPP backend refuses traces (a label twice in one operand) by an assertion (`prodTapp_trace`).

* C91: `Variable::conjugate` (so `adjoint`) and `Constant::operator*=`, `+=`, `-=` do not reset the stored hash. The next request for the hash fails an assertion, or returns the old one in builds without assertions (`adjoint_stale`, `clone_adjoint_stale`, `mulC_stale`, `flatten_stale`).
* C91: `Power::static_less_than` compares different bases by hash. If hashes collide it is not a strict weak order (`powLess_collision`).
* C92: `rewrite` sorts auxiliary indices by the size of their spaces though no symmetry is declared for them, and puts them before or after the others by size. Two elements that have nothing to do with each other may get the same indices (`aux_clash`, `aux_clash_row`, `no_array`).
* C92: the exchange of bra and ket is decided with the order before particles are sorted (`particles_not_fastest`), and for the row major layout the auxiliary indices are compared with the first block (`aux_not_fastest`). Only speed suffers.
* C93: if the new pairs leave out particles, `num_closed_loops` may put the end of an open chain into `in_loop` several times, and the assertion on its size fails for four particles (`numClosedLoops_open_chain_fails`). With a repeated lower index the loop does not end (`numClosedLoops_diverges`).
* C95: `cumu3_to_density` multiplies the density by the rest where the formula has a sum (rdm.cpp:70), and the product is then taken for a sum, so the function fails for every argument (`cumu3ToDensity_fails`). Nothing calls it today because `three_body_decomposition` uses `three_body_decomp` without cumulants of rank three.
* C96: `rewrite` uses the eightfold symmetry whatever the symmetry flags of the tensor say, so antisymmetrized or complex integrals change their value (`integral_other_symmetry_fails`). If two spaces have the same size, or with an unspecified layout, equivalent integrals are exported differently (`integral_equal_sizes_fails`, `integral_unspecified_fails`).
* C97: higher ordinals take the following letters of the alphabet, so `a_9` and `i_1` are both called `i` (`indexName_collision`), the letter after `Z` is `[` (`indexName_bracket`).
* C98: `begin_export` does not reset the open batch loops, so after an exception the next export closes loops that were never opened in its text (`export_after_abort_fails`).
* C99: `extract_einsum_components` writes a comma only if the subscripts so far are not empty, so a tensor without indices before another tensor makes `einsum` fail (`commas_fail`). Factors of other types are dropped silently (`other_dropped`). The first byte of a label is used without a look at the available letters, which gives invalid subscripts for labels in Greek, and for capital letters with PyTorch (`first_byte_fails`).
* C100: a complex constant with a fractional imaginary part is printed like `(0+1/2j)`, which Python reads as `1/(2j)`, so the constant is conjugated (`const_text_conj`; the Julia generator prints `1/2im` in the same way). A conjugated variable is printed without its conjugation (`var_text_conj`). An empty sum is printed as `()`.
* C101: bra and ket are not told apart (`tensorName_slots`), the default tag is one byte of UTF-8, so all Greek spaces have the same tag (`tensorName_greek`), sanitized labels can clash with each other, with variables and with reserved words.
* C103: the partitions of indices are the classes of linked vertices for bras and kets separately. If an automorphism exchanges two bras and two kets only together (two equal tensors without antisymmetry on one antisymmetric normal operator), the reduction takes exchanges of the bras alone for symmetries. `tt_topology_wrong` has a product of two equal matrices for which every exchange of both pairs is a symmetry, but the reduced sum is 16 and the full sum is 4. (In SeQuant's own use amplitudes are antisymmetric.)
* C105: `may_have_same_color` compares only the labels of tensors and only the numbers of columns. Two tensors with one label and different ranks or symmetries get the same color when their hashes collide; since colors have 32 bits there are such ranks for every hash function (`ranks_share_color`). Without `distinct_named_indices` a collision of a named and an unnamed index is not noticed either (`named_unnamed_share_color`).
* C106: `OpRegistry(std::shared_ptr<map>)` shares the map of classes but not the overrides. After one registry removes an operator the other still reports its overridden hermiticity, although `contains` is false and `to_class` throws, and gives it to an operator added later (`shared_map_stale`).
* C107: factors that are themselves products are counted as no normal operator by `expectation_value_impl`; connections of the operators after them are asked for at wrong positions (`nested_product_wrong`). Products are flattened by default, so this needs a product built with `Flatten::No`.
* C109: `external_indices` of a single tensor returns repeated indices too, unlike for a product (`external_trace`); two empty slots count as a repeated index and one as an external index (`external_empty_slots`).
* C110: `target_indices` drops an external index that is also a protoindex of another index, unless it is passed as uncontracted (`target_drops_external`); `canon_indices` of the same node has it.
* C111: `tensor::F(false, occ)` in a spin-free basis has the two-electron part `J - K` (op.cpp:703-716); for doubly occupied orbitals it should be `2 J - K`, which is what the spinor form gives when summed over spin (`fock_spinfree_wrong`).
* C111: `t`, `λ`, `R`, `L` check that their label is registered but not its class; if it is another one, tensor form and quantum numbers disagree (`class_not_checked`).  Also, `tensor::Tʼ(0)` and `tensor::Λʼ(0)` return a null expression instead of failing an assertion like `T(0)`.
* C112: with partial contractions a summand is stored after every contraction, whether or not the required connections have been made (wick.hpp:1526-1527), and for an input given as a sequence of normal operators the contraction-free summand is stored, too, because `nop_nconnections_total_` is the size of a list that is only filled for inputs given as expressions (wick.hpp:259, 1209); `partial_unconnected`.  A second call of `set_nop_connections` for an input given as an expression uses the sequence of normal operators before it exists (wick.hpp:232-238).
* C114: if no term of the Hamiltonian reaches a rank (`pmax` given by the user), the screened sum is a null pointer that is multiplied by the projector (cc.cpp:104-105, 132); without screening the equation is an ordinary vanishing average; `t_null`.
* C116: `diactrics_to_string_impl` has no branch that copies an ordinary character once something has been replaced, so all ordinary characters after the first accented one are lost (`ã_1` becomes `\tilde{a}`); and `next_ch` (latex.cpp:171, 180) keeps its value at the last character, so that a single character after a marked one (`t̃1`) is taken for marked too and the iterator is moved past the end (line 195 and the `++it` of the loop), undefined behaviour; `dia_loses`, with `dia_right_iff` and `dia_ub_iff` saying exactly when.
* C116: no separator follows the name of a Greek letter, `αb` becomes `\alphab`; `utf_merges`.
* C117: `max_lines_per_align` (expr_algorithms.hpp:22) is exceeded by one: the counter is of line breaks, not lines, and a new block is started only at the sign after the last line break, i.e. after one summand of the extra line (`blocks_too_long`, `block_in_line`).
* C117: a sum whose first summand is negative starts with an empty line `( \\` (`negative_first`); a sign between blanks inside a summand, e.g. in the LaTeX of a complex number, is taken for one between summands and the line is broken inside braces (`complex_torn`); `max_terms_per_line = 0` divides by zero (`zero_terms_ub`).
* C118: `open_shell_P_op_vector` (spin.cpp:1288-1326) generates exchanges of one and of two pairs of α and β indices only.  From rank 6 on (three or more of both spins) permutations are missing without any error, and the factor `1 / (bra_permutations.size() * ket_permutations.size())` is too large: for rank 6 with three β indices there are 19 terms instead of 20 (`expand_incomplete`).
* C119: the assertion of wick.hpp:1545 ("all ops are contracted out") can fail for spin-free operators that do not conserve the number of particles, e.g. the full contraction of `a†_1 a†_2 a_3` with `a†_4 a_5 a_6` (`leftover_without_partners`): a contraction of an operator without partner is skipped and its other end stays in the list.  `1 << ncycles` shifts an `int`, so 31 or more cycles overflow (not modelled).
* C120: `replace` (utility/expr.hpp:122-123) returns the replacement unchanged if the expression itself is the match, contrary to its documentation: `t{a3;a4}` with `t{a1;a2} -> r{a1;a2}` becomes `r{a1;a2}` (`whole_match_wrong`).  Summation indices of the replacement are not renamed (`capture`).  A replacement with a sum inside a product throws if it has an index of the target and is accepted otherwise (`nested_refused`).  `TensorBlockEqualComparator` does not compare the numbers of bra, ket and aux slots (`rank_ignored`).
* C120: `replace` of a `ResultExpr` compares the indices of the result with the unpaired indices in the order of the expression, also if nothing was replaced: `R{a2,a1} = t{a1,a2}` becomes `R{a1,a2} = t{a1,a2}` (`result_reordered`), and the indices of a result with an antisymmetrizer are removed (`result_emptied`).
* C121: with a given `hbar_comm_rank` the equations for perturbed amplitudes are not the derivatives of the equations for the amplitudes: `CC::tʼ` (cc.cpp:260) uses that rank where the derivative has one commutator less (`given_rank`, `given_rank_wrong`); `CC::λ` (cc.cpp:143) does subtract one.  `CC::λʼ` (cc.cpp:328) uses 3 whatever was given (`lambda_ignores_rank`).
* C122: `is_valid` (utility/expr.cpp:304-381) accepts an index three times if two of them are in one tensor or in a nested product (`thrice_accepted`), an index that is summed over inside a sum and occurs outside too (`capture_accepted`), and contractions of two bra slots (`bra_bra_accepted`).  An empty sum makes it read summand 0, powers and operators fail an assertion (`not_total`).
* C123: `Tensor::static_less_than` (tensor.hpp:882) and `NormalOperator::static_less_than` (op.hpp:770-790) decide by hash values whether lists of indices are equal, so a collision gives three tensors each less than the next (`tensorLess_cycle`, `nopLess_cycle`).  `operator<` of abstract tensors answers false for a tensor and an operator, so incomparability is not transitive (`abstractLess_mixed`).  `!=` of index spaces looks at the base key, `<` does not, so `TensorBlockCompare` stops without an answer at spaces that differ only there (`blockCompare_keys`).  `TensorBlockLessThanComparator` (utility/tensor.hpp:22-60) compares only the number of all slots, so `t{i;a}` and `t{i,a;}` are one key (`blockLess_ranks`).
* C124: `WK_biorthogonalization_filter_impl` (biorthogonalization.cpp:585) drops summands that are no products, e.g. a bare tensor (`others_dropped`).  It is right only if no permutation but one of particles keeps a term: for a term in which two particles have interchangeable first indices the projection of what is kept is 4/5 of the expression (`projects_symmetric`).  It is wrong too if several independent terms have the same hash value (`projects_same_hash`).
* C125: `throw_if_missing_any` (index_space_registry.hpp:1431-1433) names the second component of the result of `try_emplace` `found` and asserts that it is false, but it is true if the entry was inserted.  So with assertions no designation for particular quantum numbers is ever accepted (`perQn_checked`); without them it works (`perQn_released`), except that an empty map is refused with an empty message (`perQn_empty`).
* C125: `add_fermi_spin` (convention.cpp:56-59) does not pass on the field of a space, so the spin spaces of a real space are complex (`spin_field`).  It fails if two spaces share a type (`spin_shared_type`), so it must be called before spaces for density fitting and the like are added (`spin_after_df`), and it cannot be called twice (`spin_twice`).
* C125: with the spaces of QCiFS (`make_legacy_spaces`) the rest of the complete space has no registered space, so `vacuum_unoccupied_space` and `contains_unoccupied` throw (`unoccupied_qcifs`).  The bosonic registry of `make_fermi_and_bose_spaces` designates the null space as occupied, which the getters treat as missing: all questions about occupancy throw (`bose_occupancy`).
* C125: spaces for density fitting have type 1 in every convention.  With the minimal conventions `is_pure_occupied` finds the space itself as "occupied space with these quantum numbers" and says it is occupied; with the others it throws (`extras_occupancy`).  `add_ao_spaces` with a second basis needs `m` and `e`, with an auxiliary one `α'` (`extras`).
* C125: `add_intersection` (index_space_registry.hpp:512-513) does not compute the field, so the intersection of two real spaces is complex (`inter_field`); `add_unIon` does (`union_added`).  An intersection that is a single base space is always refused: it is registered already or has no size (`inter_base`).  Base spaces that are not registered are left out of the size of a composite type without notice (`union_size_missing`).
* C126: `diff` (core/utility/expr.cpp:240-241) computes the size of the second expression from the iterators of the first.  So "Sizes differ" is never reported: further terms of the second expression are not noticed (`diff_misses`), and missing ones make the loop read past its end (`diff_overruns`).
* C126: the text about kets compares the bras and the text about auxiliary indices compares the kets (expr.cpp:199, 202), so neither names an index (`diff_ket`).  Because of operator precedence (expr.cpp:58-60) the text about conjugation is "conjugatednon-conjugated" (`diff_conj`).  Objects such as normal operators or powers that differ abort (`diff_other`).
* C127: `load(variable, set_to_zero)` of the Julia generator (julia_tensor_operations.hpp:202-203) assigns `"0"` to the generated text instead of appending it, so all code generated before is lost and the variable is not set (`load_zero_wipes`); the generator for TensorKit inherits this.
* C127: `to_julia_expr` does not put sums in parentheses (`sum_factor`), ignores that a variable is conjugated (`conj_lost`; only in powers it is not), and leaves a dangling `*` after the prefactor of a product without factors (`empty_product`).  Names of tensors are ambiguous if tags differ in length or labels contain underscores (`name_clash`).
* C128: `toUtf8` (string.cpp:13-17) takes each wide character for a unit of UTF-16.  Where `wchar_t` has 32 bits, a character outside the basic plane fails the assertion, or is cut to another character if assertions are off (`utf8_wide`).
* C128: `string_to` for wide text composes the message of its exception with `toUtf8` (conversion.hpp:93), so such text aborts, and lone surrogates cause an exception of utfcpp instead of `ConversionException` (`wstring_message`).
* C129: `Singleton::instance` reads the pointer without the mutex (singleton.hpp:59-60) although `std::unique_ptr` is no atomic, so a first call concurrent with another first call or with `set_instance` is a data race (`singleton_race`), contrary to the comment in lines 19 and 39.  `instance_ptr` returns a reference as a pointer for default-constructible classes (line 77), which does not compile if used.
* C129: values of `fetch_and_increment` are not unique if the increment is zero or the counter wraps around (`fetch_wrap`).

## Not modelled (so far)

Graph canonicalization by bliss (an arbitrary function in C66, C67; automorphisms are arbitrary in C104), LaTeX output other than labels and line breaks, the TiledArray back end and the evaluation of trees with it, the generator for plain text and the parts of those for Julia that C127 leaves out,
the conversions from and to strings of the host that C128 leaves out (locale, malformed UTF-8, floating-point numbers), what C121 leaves out of the perturbed and equation-of-motion equations
(`mbpt/models/cc.cpp`), the first two versions of tensor networks, exceptions thrown by allocation, floating-point rounding.

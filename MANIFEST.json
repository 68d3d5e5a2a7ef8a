{
 "claims": [
  {
   "property": "C01",
   "status": "proved",
   "theorems": [
    "SeQuant.Wick.wick_full",
    "SeQuant.Wick.wick_full_contractions"
   ],
   "note": "Full contractions without connectivity constraints and with default operator partitions; algebraic identity plus exactly-once and sign characterisation. Canonicalization of the summands is not part of the model."
  },
  {
   "property": "C02",
   "status": "proved",
   "theorems": [
    "SeQuant.Wick.wick_partial_sum",
    "SeQuant.Wick.wick_partial_contractions"
   ],
   "note": "Operator identity and exactly-once characterisation of the contraction sets with their signs."
  },
  {
   "property": "C03",
   "status": "proved",
   "theorems": [
    "SeQuant.Wick.normalize_phase",
    "SeQuant.Wick.normalize_sign",
    "SeQuant.Wick.normalize_order",
    "SeQuant.Wick.normalize_normal"
   ],
   "note": "Every sequence and every list of target partners."
  },
  {
   "property": "C04",
   "status": "partial",
   "theorems": [
    "SeQuant.Wick.opAdjoint_opAdjoint",
    "SeQuant.Wick.NOp.adjoint_adjoint",
    "SeQuant.Wick.NOp.adjoint_mk'",
    "SeQuant.Wick.seqAdjoint_seqAdjoint",
    "SeQuant.Wick.star_N",
    "SeQuant.Wick.star_prod_nop",
    "SeQuant.Wick.star_string",
    "SeQuant.Expression.adjoint_val",
    "SeQuant.Expression.adjoint_prod_val",
    "SeQuant.Expression.adjoint_adjoint_val",
    "SeQuant.Expression.adjoint_adjoint_partial",
    "SeQuant.Expression.adjoint_adjoint_nested"
   ],
   "note": "Operators, normal operators and sequences: proved. Expressions: value and reversal proved for all trees, double adjoint has the same value for all trees; identical only for normalised trees (witness: a nested product is dissolved)."
  },
  {
   "property": "C05",
   "status": "partial",
   "theorems": [
    "SeQuant.Wick.commutesWith_partial",
    "SeQuant.Wick.commutesWith_asymmetric",
    "SeQuant.Wick.commutesWith_odd"
   ],
   "note": "The report is neither symmetric nor sound (witnesses with two fermionic modes). Proved: a report in both directions is sound if one side is bosonic or has only normal operators of even length."
  },
  {
   "property": "C06",
   "status": "proved",
   "theorems": [
    "SeQuant.Sort.bubbleSort_terminates",
    "SeQuant.Sort.bubbleSort_nonstrict_diverges",
    "SeQuant.Sort.bubbleSort_sound",
    "SeQuant.Sort.bubbleSort_sorted",
    "SeQuant.Sort.bubbleSort_stable",
    "SeQuant.Sort.bubbleSort_prod",
    "SeQuant.Sort.bubbleSort_parity",
    "SeQuant.Sort.bubbleSort_parity_nodup",
    "SeQuant.Sort.bubbleSort_alternating",
    "SeQuant.Sort.compositeCompare_asymm",
    "SeQuant.Sort.bubbleSort_zip"
   ],
   "note": "All ranges and all asymmetric comparators; a reflexive comparator diverges, contrary to the note in the header."
  },
  {
   "property": "C07",
   "status": "proved",
   "theorems": [
    "SeQuant.Perm.next_defined",
    "SeQuant.Perm.next_parity",
    "SeQuant.Perm.next_true",
    "SeQuant.Perm.next_false",
    "SeQuant.Perm.enumerate_complete"
   ],
   "note": "Any linear order, repeated elements allowed."
  },
  {
   "property": "C08",
   "status": "partial",
   "theorems": [
    "SeQuant.Perm.permutationParity_wrong",
    "SeQuant.Perm.permutationParity_not_restored",
    "SeQuant.Perm.permutationParity_partial"
   ],
   "note": "The statement is false (witness: identity on one element). Proved for involutions: sign times (-1)^(number of fixed points)."
  },
  {
   "property": "C09",
   "status": "proved",
   "theorems": [
    "SeQuant.Perm.countCycles_components",
    "SeQuant.Perm.countCycles_spin",
    "SeQuant.Perm.countCycles_permutation",
    "SeQuant.Perm.countCycles_flip"
   ],
   "note": "All ranges; no precondition needed for the component count."
  },
  {
   "property": "C10",
   "status": "proved",
   "theorems": [
    "SeQuant.Bits.subsetsDescending_complete",
    "SeQuant.Bits.subsetsAscending_complete",
    "SeQuant.Bits.bipartitions_sound",
    "SeQuant.Bits.bipartitions_exactly_once",
    "SeQuant.Bits.onBitsIndex_complete"
   ],
   "note": "All widths and masks; fewer than 64 set bits assumed by the shift in nparts."
  },
  {
   "property": "C100",
   "status": "partial",
   "theorems": [
    "SeQuant.Einsum.toScalar_value",
    "SeQuant.Einsum.toEinsum_text",
    "SeQuant.Einsum.piece_const",
    "SeQuant.Einsum.piece_pow",
    "SeQuant.Einsum.const_text_conj",
    "SeQuant.Einsum.var_text_conj",
    "SeQuant.Einsum.empty_sum_fails",
    "SeQuant.Einsum.toScalar_tensor"
   ],
   "note": "missing: fractional imaginary parts are read by Python with the opposite sign (const_text_conj), conjugation of variables is lost (var_text_conj); proved for all other expressions"
  },
  {
   "property": "C101",
   "status": "proved",
   "theorems": [
    "SeQuant.Einsum.sanitize_identifier",
    "SeQuant.Einsum.sanitize_eq_iff",
    "SeQuant.Einsum.tensorName_identifier",
    "SeQuant.Einsum.tensorName_inj",
    "SeQuant.Einsum.tensorName_ne_variable",
    "SeQuant.Einsum.tensorName_slots",
    "SeQuant.Einsum.tensorName_greek",
    "SeQuant.Einsum.sanitize_clash",
    "SeQuant.Einsum.variable_clash",
    "SeQuant.Einsum.tag_clash",
    "SeQuant.Einsum.keyword_kept"
   ],
   "note": "with witnesses of clashes where a condition does not hold"
  },
  {
   "property": "C102",
   "status": "proved",
   "theorems": [
    "SeQuant.Topology.topology_one_of_each_kind",
    "SeQuant.Topology.topology_weight",
    "SeQuant.Topology.topology_sum_of_kind",
    "SeQuant.Topology.setOpPartitions_wf",
    "SeQuant.Topology.setOpPartitions_complete",
    "SeQuant.Topology.topology_partial_one_of_each_kind",
    "SeQuant.Topology.topology_partial_weight",
    "SeQuant.Topology.topology_partial_sum_of_kind"
   ],
   "note": "full contractions; partitions lie inside one normal operator and their operators contract alike, as compute makes them"
  },
  {
   "property": "C103",
   "status": "partial",
   "theorems": [
    "SeQuant.Topology.topology_sum",
    "SeQuant.Topology.topology_partial_sum",
    "SeQuant.Topology.topology_tensor_sum",
    "SeQuant.Topology.tt_partitions",
    "SeQuant.Topology.tt_invariant",
    "SeQuant.Topology.tt_topology_wrong"
   ],
   "note": "missing: compute makes partitions from automorphisms that exchange pairs only together; then the antisymmetry needed does not hold and the result can be wrong (tt_topology_wrong); proved whenever it holds"
  },
  {
   "property": "C104",
   "status": "proved",
   "theorems": [
    "SeQuant.Topology.computePartitions_domain",
    "SeQuant.Topology.computePartitions_linked",
    "SeQuant.Topology.uniteAll_linked",
    "SeQuant.Topology.partitions_linked"
   ],
   "note": "automorphisms are arbitrary functions that stay within the listed vertices, as the code asserts"
  },
  {
   "property": "C105",
   "status": "proved",
   "theorems": [
    "SeQuant.Painter.same_color_allowed",
    "SeQuant.Painter.same_color_same_type",
    "SeQuant.Painter.named_index_unique",
    "SeQuant.Painter.same_start_same_color",
    "SeQuant.Painter.repeated_object",
    "SeQuant.Painter.same_type_same_color",
    "SeQuant.Painter.run_isSome",
    "SeQuant.Painter.ranks_share_color",
    "SeQuant.Painter.named_unnamed_share_color"
   ],
   "note": "hash functions are arbitrary; ranks_share_color and named_unnamed_share_color show what the comparison of the code does not tell apart"
  },
  {
   "property": "C106",
   "status": "partial",
   "theorems": [
    "SeQuant.Registry.run_refines",
    "SeQuant.Registry.shared_map_stale",
    "SeQuant.Registry.predefined_accepted",
    "SeQuant.Registry.default_context_exact",
    "SeQuant.Registry.predefined_classes"
   ],
   "note": "missing: registries built from the map of another one have overrides of their own, so that a removed operator keeps its hermiticity (shared_map_stale); proved for all sequences of calls without that constructor"
  },
  {
   "property": "C107",
   "status": "partial",
   "theorems": [
    "SeQuant.VacAv.lowered_pairs",
    "SeQuant.VacAv.absent_label",
    "SeQuant.VacAv.product_value",
    "SeQuant.VacAv.sum_value",
    "SeQuant.VacAv.atom_value",
    "SeQuant.VacAv.nested_product_wrong"
   ],
   "note": "missing: products inside products are not looked into and shift the positions (nested_product_wrong); proved for products without products among their factors; Wick's theorem, expansion and screening are parameters"
  },
  {
   "property": "C108",
   "status": "proved",
   "theorems": [
    "SeQuant.Topology.topology_operator_identity",
    "SeQuant.Topology.topology_vacuum_identity",
    "SeQuant.Topology.topology_partial_sum",
    "SeQuant.Topology.same_kind_renaming_partial"
   ],
   "note": "the symmetry of the tensors is the hypothesis; C103 records that the partitions the code computes need not have it; connectivity constraints are not used together with topology in the model"
  },
  {
   "property": "C109",
   "status": "partial",
   "theorems": [
    "SeQuant.Named.external_tensor",
    "SeQuant.Named.external_antisymmetrizer",
    "SeQuant.Named.external_symmetrizer",
    "SeQuant.Named.external_symmetrized",
    "SeQuant.Named.external_two_symmetrizers",
    "SeQuant.Named.external_product_partial",
    "SeQuant.Named.external_symmetrizer_in_front",
    "SeQuant.Named.group_access",
    "SeQuant.Named.group_view",
    "SeQuant.Named.external_trace",
    "SeQuant.Named.external_empty_slots",
    "SeQuant.Named.external_last_symmetrizer"
   ],
   "note": "fails for a single tensor with a repeated index, for empty slots and for indices that occur more than twice"
  },
  {
   "property": "C11",
   "status": "proved",
   "theorems": [
    "SeQuant.Expression.expand_correct",
    "SeQuant.Expression.expand_atoms"
   ],
   "note": "Every expression tree and every interpretation in a noncommutative algebra; termination with an explicit bound on the rounds."
  },
  {
   "property": "C110",
   "status": "partial",
   "theorems": [
    "SeQuant.Named.usedCounts_exact",
    "SeQuant.Named.usedIndices_exact",
    "SeQuant.Named.extract_exact",
    "SeQuant.Named.tot_exact",
    "SeQuant.Named.tot_split",
    "SeQuant.Named.target_exact",
    "SeQuant.Named.target_partial",
    "SeQuant.Named.target_drops_external"
   ],
   "note": "the target indices of an intermediate lack an external index that is also a protoindex of another one"
  },
  {
   "property": "C111",
   "status": "partial",
   "theorems": [
    "SeQuant.Maker.make_refuses",
    "SeQuant.Maker.make_indices",
    "SeQuant.Maker.make_fresh",
    "SeQuant.Maker.make_dependence",
    "SeQuant.Maker.make_coef",
    "SeQuant.Maker.value_antisymm",
    "SeQuant.Maker.value_spinfree",
    "SeQuant.Maker.qns_sound",
    "SeQuant.Maker.tensor_spaces",
    "SeQuant.Maker.adjoint_pairs",
    "SeQuant.Maker.projector_deexcites",
    "SeQuant.Maker.ranksT_exact",
    "SeQuant.Maker.ranksR_exact",
    "SeQuant.Maker.validate_exact",
    "SeQuant.Maker.batch_exact",
    "SeQuant.Maker.fock_spinor",
    "SeQuant.Maker.fock_summed",
    "SeQuant.Maker.fock_spinfree_wrong",
    "SeQuant.Maker.class_not_checked",
    "SeQuant.Maker.csv_dependence",
    "SeQuant.Maker.tensor_coef"
   ],
   "note": "the explicit Fock operator in a spin-free basis lacks the factor of two of its Coulomb part; the class of a label in the registry is not checked; values for indices whose states do not depend on others"
  },
  {
   "property": "C112",
   "status": "partial",
   "theorems": [
    "SeQuant.Linked.constrained_exact",
    "SeQuant.Linked.setPairs_refuses",
    "SeQuant.Linked.partial_avoids",
    "SeQuant.Linked.partial_unconnected"
   ],
   "note": "full contractions; with partial contractions avoided pairs are respected but required connections are not guaranteed (witness); normal operators in a required pair are not empty; no user-defined partitions of operators"
  },
  {
   "property": "C113",
   "status": "proved",
   "theorems": [
    "SeQuant.Linked.linked",
    "SeQuant.Linked.linked_sums",
    "SeQuant.Linked.linked_series",
    "SeQuant.Linked.linked_terminates"
   ],
   "note": "for the engine without user-defined partitions of operators, i.e. before the topological reduction of C102-C104"
  },
  {
   "property": "C114",
   "status": "partial",
   "theorems": [
    "SeQuant.Cc.t_exact",
    "SeQuant.Cc.lambda_exact",
    "SeQuant.Cc.raises_mono",
    "SeQuant.Cc.lowers_mono",
    "SeQuant.Cc.projected_kept",
    "SeQuant.Cc.lowered_kept",
    "SeQuant.Cc.t_screening",
    "SeQuant.Cc.lambda_screening",
    "SeQuant.Cc.t_null"
   ],
   "note": "null pointer if no term reaches a rank (witness); the quantum numbers of the operators are those of C43, wrong for composite spaces; element 0 of CC::lambda is not part of it"
  },
  {
   "property": "C115",
   "status": "proved",
   "theorems": [
    "SeQuant.Cc.hbar_truncation",
    "SeQuant.Cc.lambda_truncation",
    "SeQuant.Cc.pert_truncation",
    "SeQuant.Cc.rdm_truncation",
    "SeQuant.Cc.absorbed"
   ],
   "note": "matrix elements of nested commutators, which by C113 are the connected products averaged"
  },
  {
   "property": "C116",
   "status": "partial",
   "theorems": [
    "SeQuant.Latex.greek_exact",
    "SeQuant.Latex.greek_clean",
    "SeQuant.Latex.greek_narrow",
    "SeQuant.Latex.dia_ub_iff",
    "SeQuant.Latex.dia_right_iff",
    "SeQuant.Latex.dia_exact",
    "SeQuant.Latex.dia_plain",
    "SeQuant.Latex.dia_narrow",
    "SeQuant.Latex.utf_partial",
    "SeQuant.Latex.utf_plain",
    "SeQuant.Latex.utf_narrow",
    "SeQuant.Latex.dia_loses",
    "SeQuant.Latex.utf_merges"
   ],
   "note": "fails if a character without accent follows one with an accent: it is lost, or the iterator leaves the string (dia_loses; dia_right_iff and dia_ub_iff say exactly when); the name of a Greek letter runs into a letter that follows (utf_merges)"
  },
  {
   "property": "C117",
   "status": "partial",
   "theorems": [
    "SeQuant.Latex.align_terms",
    "SeQuant.Latex.align_other",
    "SeQuant.Latex.lines_short",
    "SeQuant.Latex.default_lines",
    "SeQuant.Latex.one_block",
    "SeQuant.Latex.blocks_short_partial",
    "SeQuant.Latex.blocks_too_long",
    "SeQuant.Latex.block_in_line",
    "SeQuant.Latex.negative_first",
    "SeQuant.Latex.complex_torn",
    "SeQuant.Latex.zero_terms_ub"
   ],
   "note": "a block can have one line more than the limit (blocks_too_long; blocks_short_partial has the bound that holds), a block is started in the middle of a line, a negative first summand leaves an empty first line, a sign within a complex prefactor is taken for one between summands, and a limit of zero summands divides by zero"
  },
  {
   "property": "C118",
   "status": "partial",
   "theorems": [
    "SeQuant.OpenShell.expand_exact",
    "SeQuant.OpenShell.expand_full_partial",
    "SeQuant.OpenShell.size_cosets",
    "SeQuant.OpenShell.expand_incomplete",
    "SeQuant.OpenShell.openP_applicable",
    "SeQuant.OpenShell.openP_antisymmetrizes_partial"
   ],
   "note": "false with three or more indices of both spins (expand_incomplete): exchanges of three and more pairs are not generated; expand_exact says exactly which permutations are, for all ranks"
  },
  {
   "property": "C119",
   "status": "partial",
   "theorems": [
    "SeQuant.Partners.spins_count",
    "SeQuant.Partners.full_factor",
    "SeQuant.Partners.target_pairs",
    "SeQuant.Partners.order_irrelevant",
    "SeQuant.Partners.nop_partners",
    "SeQuant.Partners.leftover_without_partners"
   ],
   "note": "false for operators that do not conserve the number of particles (leftover_without_partners): a pair can be left after a full contraction and the assertion fails; proved if all contracted operators have partners. The shift 1 << ncycles is unbounded here"
  },
  {
   "property": "C12",
   "status": "proved",
   "theorems": [
    "SeQuant.Expression.flatten_correct"
   ],
   "note": "Every expression tree; powers and other leaves are atoms, which flatten leaves alone."
  },
  {
   "property": "C120",
   "status": "partial",
   "theorems": [
    "SeQuant.Replace.replace_value_partial",
    "SeQuant.Replace.replace_scalar_value",
    "SeQuant.Replace.replace_none",
    "SeQuant.Replace.blockEq_slots",
    "SeQuant.Replace.block_match",
    "SeQuant.Replace.composite_refused",
    "SeQuant.Replace.whole_match",
    "SeQuant.Replace.whole_match_wrong",
    "SeQuant.Replace.capture",
    "SeQuant.Replace.nested_refused",
    "SeQuant.Replace.rank_ignored",
    "SeQuant.Replace.result_groups",
    "SeQuant.Replace.result_reordered",
    "SeQuant.Replace.result_emptied"
   ],
   "note": "false in general: a match that is the whole expression keeps the indices of the replacement (whole_match_wrong), summation indices are captured (capture), results are reordered or lose indices (result_reordered, result_emptied); proved for matches below the top, values for fixed indices"
  },
  {
   "property": "C121",
   "status": "partial",
   "theorems": [
    "SeQuant.Cc.series_derivative",
    "SeQuant.Cc.lambda_derivative",
    "SeQuant.Cc.lambda_response",
    "SeQuant.Cc.response_exact",
    "SeQuant.Cc.response_connected",
    "SeQuant.Cc.given_rank",
    "SeQuant.Cc.given_rank_wrong",
    "SeQuant.Cc.lambda_ignores_rank",
    "SeQuant.Cc.eom_manifolds"
   ],
   "note": "false if a commutator rank is given (given_rank, given_rank_wrong, lambda_ignores_rank); proved for the default ranks, for the traditional ansatz, with one string each for the Hamiltonian and the perturbation; missing: the connections with the projector in lambda-prime and eom_l, the averages of the equations of motion, frequency terms"
  },
  {
   "property": "C122",
   "status": "partial",
   "theorems": [
    "SeQuant.Valid.valid_product",
    "SeQuant.Valid.valid_sum",
    "SeQuant.Valid.valid_result",
    "SeQuant.Valid.thrice_accepted",
    "SeQuant.Valid.capture_accepted",
    "SeQuant.Valid.bra_bra_accepted",
    "SeQuant.Valid.not_total"
   ],
   "note": "false in general (thrice_accepted, capture_accepted, bra_bra_accepted, not_total); proved for sums of products of scalars and tensors that have no index twice"
  },
  {
   "property": "C123",
   "status": "partial",
   "theorems": [
    "SeQuant.Orders.tensorLess_order",
    "SeQuant.Orders.tensorLess_ties",
    "SeQuant.Orders.nopLess_order",
    "SeQuant.Orders.operatorLess_order",
    "SeQuant.Orders.blockCompare_order",
    "SeQuant.Orders.blockLess_order",
    "SeQuant.Orders.indexSpecificLess_order",
    "SeQuant.Orders.tensorLess_cycle",
    "SeQuant.Orders.nopLess_cycle",
    "SeQuant.Orders.abstractLess_mixed",
    "SeQuant.Orders.blockCompare_keys",
    "SeQuant.Orders.blockLess_ranks"
   ],
   "note": "false in general: colliding hash values give cycles (tensorLess_cycle, nopLess_cycle), tensors and operators together are not ordered (abstractLess_mixed), spaces that differ only in the base key stop the comparison of blocks (blockCompare_keys); proved for many-body operators without hypotheses, for tensors and normal-ordered operators if the hash function distinguishes lists of indices, for blocks if the attribute of a space determines its base key"
  },
  {
   "property": "C124",
   "status": "partial",
   "theorems": [
    "SeQuant.Wk.filter_keeps",
    "SeQuant.Wk.filter_skips",
    "SeQuant.Wk.weights_less",
    "SeQuant.Wk.computed_weights",
    "SeQuant.Wk.project_averaged",
    "SeQuant.Wk.filter_projects",
    "SeQuant.Wk.three_projector",
    "SeQuant.Wk.projects_symmetric",
    "SeQuant.Wk.projects_same_hash",
    "SeQuant.Wk.others_dropped"
   ],
   "note": "the selection and the weights are proved for all inputs and numbers of particles; that projection restores the expression is false in general (projects_symmetric, projects_same_hash, others_dropped) and proved for sums of products in which no permutation but one of particles keeps a term and hash values are equal exactly for terms from the same one; the hash values and the simplification before the selection are parameters"
  },
  {
   "property": "C125",
   "status": "partial",
   "theorems": [
    "SeQuant.Conv.designate",
    "SeQuant.Conv.perQn_checked",
    "SeQuant.Conv.perQn_released",
    "SeQuant.Conv.perQn_empty",
    "SeQuant.Conv.spin_iff",
    "SeQuant.Conv.spin_retrieve",
    "SeQuant.Conv.spin_twice",
    "SeQuant.Conv.spin_shared_type",
    "SeQuant.Conv.spin_field",
    "SeQuant.Conv.predefined",
    "SeQuant.Conv.unoccupied",
    "SeQuant.Conv.unoccupied_qcifs",
    "SeQuant.Conv.bose_occupancy",
    "SeQuant.Conv.extras",
    "SeQuant.Conv.extras_occupancy",
    "SeQuant.Conv.extras_apart",
    "SeQuant.Conv.spin_after_df",
    "SeQuant.Conv.size_spec",
    "SeQuant.Conv.union_size",
    "SeQuant.Conv.union_size_missing",
    "SeQuant.Conv.field_spec",
    "SeQuant.Conv.union_field",
    "SeQuant.Conv.inter_field",
    "SeQuant.Conv.union_added",
    "SeQuant.Conv.inter_added",
    "SeQuant.Conv.inter_base"
   ],
   "note": "false for designations for particular quantum numbers (perQn_checked: never accepted if assertions are compiled in; perQn_empty), for the field of spin spaces (spin_field), for the unoccupied space of QCiFS (unoccupied_qcifs), for the bosonic registry (bose_occupancy) the occupancy of spaces for density fitting (extras_occupancy), the field of intersections (inter_field) and the size of types with unregistered base spaces (union_size_missing); the rest is proved: what unions and intersections add, their sizes and the field of unions, default designations, designations without assertions, exactly when spin spaces can be added and which, and the twelve predefined registries"
  },
  {
   "property": "C126",
   "status": "partial",
   "theorems": [
    "SeQuant.Diff.diff_same",
    "SeQuant.Diff.diff_spec_partial",
    "SeQuant.Diff.tensor_spec",
    "SeQuant.Diff.indices_spec",
    "SeQuant.Diff.space_spec",
    "SeQuant.Diff.index_spec",
    "SeQuant.Diff.diff_misses",
    "SeQuant.Diff.diff_overruns",
    "SeQuant.Diff.diff_ket",
    "SeQuant.Diff.diff_conj",
    "SeQuant.Diff.diff_other"
   ],
   "note": "false if corresponding sums or products have different sizes: nothing is said if the second has more terms (diff_misses) and the loop reads past its end if it has fewer (diff_overruns); objects of other types abort (diff_other); the texts about kets, auxiliary indices and conjugation do not name what differs (diff_ket, diff_conj); proved if sizes agree: the text is empty exactly if the expressions are equal (diff_spec_partial), the same for tensors, indices and spaces"
  },
  {
   "property": "C127",
   "status": "partial",
   "theorems": [
    "SeQuant.Julia.julia_value_partial",
    "SeQuant.Julia.sum_factor",
    "SeQuant.Julia.conj_lost",
    "SeQuant.Julia.empty_product",
    "SeQuant.Julia.name_inj_partial",
    "SeQuant.Julia.name_clash",
    "SeQuant.Julia.run_keeps_partial",
    "SeQuant.Julia.load_zero_wipes",
    "SeQuant.Julia.run_fails",
    "SeQuant.Julia.run_lines",
    "SeQuant.Julia.kit_domain"
   ],
   "note": "false for sums as factors (sum_factor), conjugated variables (conj_lost), products without factors (empty_product), tags of different length or underscores in labels (name_clash), and for loading a variable that is to be set to zero, which discards all code generated before (load_zero_wipes); proved for everything else; contractions and the numbers in the text are left out"
  },
  {
   "property": "C128",
   "status": "partial",
   "theorems": [
    "SeQuant.Strs.utf_round",
    "SeQuant.Strs.utf8_iff",
    "SeQuant.Strs.utf16_spec",
    "SeQuant.Strs.utf8_literal",
    "SeQuant.Strs.utf8_wide",
    "SeQuant.Strs.string_to_iff",
    "SeQuant.Strs.string_to_total",
    "SeQuant.Strs.wstring_ok_iff",
    "SeQuant.Strs.wstring_refused_partial",
    "SeQuant.Strs.wstring_message"
   ],
   "note": "false for wide characters outside the basic plane (utf8_wide) and for the exceptions of string_to on wide text with such characters or lone surrogates (wstring_message); proved for everything else; malformed UTF-8 and floating-point numbers are left out, and utfcpp and std::from_chars are assumed to follow their specifications"
  },
  {
   "property": "C129",
   "status": "partial",
   "theorems": [
    "SeQuant.Conc.fetch_chain",
    "SeQuant.Conc.fetch_unique_partial",
    "SeQuant.Conc.fetch_wrap",
    "SeQuant.Conc.fetch_retry",
    "SeQuant.Conc.single",
    "SeQuant.Conc.slow_path",
    "SeQuant.Conc.settled",
    "SeQuant.Conc.singleton_race",
    "SeQuant.Conc.no_race_later"
   ],
   "note": "false for counters that wrap around or increments of zero (fetch_wrap), and for concurrent first calls of Singleton::instance, which are a data race (singleton_race); proved for everything else under sequential consistency; weaker memory orders and constructors that throw are left out"
  },
  {
   "property": "C13",
   "status": "proved",
   "theorems": [
    "SeQuant.Expression.rapidSimplify_correct",
    "SeQuant.Expression.nonCanonSimplify_correct",
    "SeQuant.Expression.rapidSimplify_atoms",
    "SeQuant.Expression.rapidSimplify_flat"
   ],
   "note": "Value and termination; Power::flatten is a parameter of the interpretation that must keep the value of a power."
  },
  {
   "property": "C14",
   "status": "partial",
   "theorems": [
    "SeQuant.Expression.product_append",
    "SeQuant.Expression.sum_append",
    "SeQuant.Expression.sum_prepend",
    "SeQuant.Expression.product_prepend_reverses",
    "SeQuant.Expression.product_prepend_scalar_twice",
    "SeQuant.Expression.product_prepend_partial",
    "SeQuant.Expression.product_prepend_comm_partial"
   ],
   "note": "Append to product and both sum operations are proved for all arguments. Product::prepend of a product reverses its factors or counts its scalar twice (witnesses); right for non-products, and when flattening in commutative algebras."
  },
  {
   "property": "C15",
   "status": "partial",
   "theorems": [
    "SeQuant.Expression.mulE_val",
    "SeQuant.Expression.addE_val",
    "SeQuant.Expression.subE_val",
    "SeQuant.Expression.addAssign_partial",
    "SeQuant.Expression.subAssign_partial",
    "SeQuant.Expression.mulAssign_partial",
    "SeQuant.Expression.product_self_append_ub",
    "SeQuant.Expression.product_self_append_ok"
   ],
   "note": "Operators proved for all pairs of distinct objects. p *= p reads dangling pointers when the factor vector reallocates (witness)."
  },
  {
   "property": "C16",
   "status": "partial",
   "theorems": [
    "SeQuant.Expression.accumulate_partial",
    "SeQuant.Expression.makeExpr_val_partial",
    "SeQuant.Expression.makeExpr_completes_partial",
    "SeQuant.Expression.transformSum_partial",
    "SeQuant.Expression.accumulate_alias",
    "SeQuant.Expression.accumulate_distinct",
    "SeQuant.Expression.accumulate_collision",
    "SeQuant.Expression.accumulate_two_constants"
   ],
   "note": "False for colliding hashes of constants, for two different constants and for one object appended three times (witnesses). Proved otherwise, for every hash function, every choice of find and every schedule."
  },
  {
   "property": "C17",
   "status": "partial",
   "theorems": [
    "SeQuant.Expression.moveOnly_val_partial",
    "SeQuant.Expression.moveOnly_clean_partial",
    "SeQuant.Expression.moveOnly_undefined",
    "SeQuant.Expression.moveOnly_undefined_zero",
    "SeQuant.Expression.moveOnly_wrong_index",
    "SeQuant.Expression.moveOnly_fuel"
   ],
   "note": "The loop steps past the end for two constants or a trailing zero (witnesses). Value proved whenever it completes; completion proved without zeros and with at most one constant."
  },
  {
   "property": "C18",
   "status": "partial",
   "theorems": [
    "SeQuant.Spaces.attr_ops",
    "SeQuant.Spaces.attr_comm",
    "SeQuant.Spaces.attr_lattice",
    "SeQuant.Spaces.attr_includes",
    "SeQuant.Spaces.attr_order",
    "SeQuant.Spaces.attr_toInt64_inj",
    "SeQuant.Spaces.space_order_partial",
    "SeQuant.Spaces.maskCompl_fails",
    "SeQuant.Spaces.reserved_includes_fails",
    "SeQuant.Spaces.space_cmp_eq_not_eq"
   ],
   "note": "Lattice laws and strict total attribute order proved for all masks. The complement operator always fails its assertion, and <=> of spaces reports equality for unequal spaces with the same attributes (witnesses); the order is total and consistent for spaces that a registry can hold together."
  },
  {
   "property": "C19",
   "status": "partial",
   "theorems": [
    "SeQuant.Spaces.registry_unique",
    "SeQuant.Spaces.find_unique",
    "SeQuant.Spaces.add_find",
    "SeQuant.Spaces.add_throws_iff",
    "SeQuant.Spaces.remove_mem",
    "SeQuant.Spaces.computeTypes_spec",
    "SeQuant.Spaces.computeSpaces_spec",
    "SeQuant.Spaces.registry_memo_partial",
    "SeQuant.Spaces.registry_memo_single_partial",
    "SeQuant.Spaces.clear_stale",
    "SeQuant.Spaces.copy_stale",
    "SeQuant.Spaces.mask_stale",
    "SeQuant.Spaces.assign_stale",
    "SeQuant.Spaces.types_duplicate",
    "SeQuant.Spaces.replace_loses"
   ],
   "note": "Unique keys and attributes after every history of operations on any number of registries. Memoized base spaces become stale after clear, assignment, change of mask and updates through a copy (witnesses); proved correct for all histories without these."
  },
  {
   "property": "C20",
   "status": "partial",
   "theorems": [
    "SeQuant.Spaces.regInter_partial",
    "SeQuant.Spaces.regInter_comm_partial",
    "SeQuant.Spaces.regInter_not_comm",
    "SeQuant.Spaces.regUnion_correct",
    "SeQuant.Spaces.validUnion_wrong",
    "SeQuant.Spaces.validUnion_partial",
    "SeQuant.Spaces.unoccupied_correct"
   ],
   "note": "Union and complement proved. Intersection of spaces with overlapping but different quantum numbers is not commutative (witness); proved otherwise. valid_unIon is asymmetric and accepts pairs for which unIon throws (witnesses)."
  },
  {
   "property": "C21",
   "status": "partial",
   "theorems": [
    "SeQuant.Indices.transform_partial",
    "SeQuant.Indices.transform_plain_partial",
    "SeQuant.Indices.transform_twice_partial",
    "SeQuant.Indices.transform_empty",
    "SeQuant.Indices.subst_comp_partial",
    "SeQuant.Indices.subst_inj_partial",
    "SeQuant.Indices.transform_chain",
    "SeQuant.Indices.transform_twice_changes",
    "SeQuant.Indices.transform_tagged_image",
    "SeQuant.Indices.transform_tagged_partial"
   ],
   "note": "For untagged indices transform performs one simultaneous substitution, if the lookup repeated after replacing proto-indices finds nothing. Maps without proto-indices: no replaced index is replaced again, composition and injectivity proved. False for maps that mention proto-indices (witnesses: replaced twice)."
  },
  {
   "property": "C22",
   "status": "partial",
   "theorems": [
    "SeQuant.Indices.tmp_unique_partial",
    "SeQuant.Indices.tmp_fresh_partial",
    "SeQuant.Indices.tmp_reset_repeats",
    "SeQuant.Indices.tmp_wraps",
    "SeQuant.Indices.factory_unique_partial",
    "SeQuant.Indices.factory_fresh_partial",
    "SeQuant.Indices.apart_beq",
    "SeQuant.Indices.factory_data_race",
    "SeQuant.Indices.tmp_factory_collide"
   ],
   "note": "Uniqueness for every number of threads and every schedule of fewer than 2^64 calls. Missing: reset_tmp_index and wrap-around repeat indices (witnesses); make() reads counters_.begin() outside the lock, a data race (witness), so C++ guarantees nothing for concurrent first calls."
  },
  {
   "property": "C23",
   "status": "partial",
   "theorems": [
    "SeQuant.Indices.index_eq_hash",
    "SeQuant.Indices.index_order_partial",
    "SeQuant.Indices.index_order_tagged_partial",
    "SeQuant.Indices.index_cmp_eq_not_eq",
    "SeQuant.Indices.index_cmp_gt_both",
    "SeQuant.Indices.index_tag_order",
    "SeQuant.Indices.index_order_cycle"
   ],
   "note": "Equal indices have equal hashes for all indices. The order is total and consistent with equality for indices of one registry with equal or no tags; with different tags or unregistered spaces it is not even a strict weak order (witnesses)."
  },
  {
   "property": "C24",
   "status": "proved",
   "theorems": [
    "SeQuant.Nodes.visit_correct",
    "SeQuant.Nodes.visit_none",
    "SeQuant.Nodes.visit_orders",
    "SeQuant.Nodes.orders_once",
    "SeQuant.Nodes.visit_subtree_fails",
    "SeQuant.Nodes.visit_leaf_escapes"
   ],
   "note": "For every tree, visitor state, pruning, order set and node selection. Visiting a node below the root (outside the statement) fails an assertion or escapes to its ancestors (witnesses)."
  },
  {
   "property": "C25",
   "status": "proved",
   "theorems": [
    "SeQuant.Nodes.deepCopy_correct",
    "SeQuant.Nodes.copyCtor_correct",
    "SeQuant.Nodes.moveCtor_correct",
    "SeQuant.Nodes.transformNode_correct",
    "SeQuant.Nodes.destroy_correct",
    "SeQuant.Nodes.foldLeft_correct",
    "SeQuant.Nodes.ofContainer_correct"
   ],
   "note": "On a heap with parent pointers: copies are equal, in fresh memory, leave the original unchanged. Move construction, the destructor and the container constructor are covered as well."
  },
  {
   "property": "C26",
   "status": "partial",
   "theorems": [
    "SeQuant.Eval.entry_reads_partial",
    "SeQuant.Eval.entry_zero",
    "SeQuant.Eval.entry_overflow",
    "SeQuant.Eval.entry_persistent",
    "SeQuant.Eval.run_entry_state",
    "SeQuant.Eval.run_unregistered",
    "SeQuant.Eval.cache_history",
    "SeQuant.Eval.cache_life",
    "SeQuant.Eval.cache_store_reads_partial",
    "SeQuant.Eval.make_entry"
   ],
   "note": "exact number of reads for counts 1..2^32; value last stored, persistence and independence of keys for every history; counts above 2^32 refuted by witness"
  },
  {
   "property": "C27",
   "status": "proved",
   "theorems": [
    "SeQuant.Eval.evaluate_eq",
    "SeQuant.Eval.evaluate_correct",
    "SeQuant.Eval.runCmds_correct",
    "SeQuant.Eval.demo_sound",
    "SeQuant.Eval.incoherent_key"
   ],
   "note": "stack machine = plain recursion for every tree, cache state, phase, hook and custom evaluator; nodes with equal keys are assumed to have equal phase x value (needed: incoherent_key)"
  },
  {
   "property": "C28",
   "status": "partial",
   "theorems": [
    "SeQuant.Eval.evaluateSeq_partial",
    "SeQuant.Eval.evaluateLayout_correct",
    "SeQuant.Eval.evalRec_traced",
    "SeQuant.Eval.sequence_disturbs_cache",
    "SeQuant.Eval.sequence_disturbs_leaf"
   ],
   "note": "proved if the first result is not shared (permuted, unregistered or phase -1); refuted for shared first results"
  },
  {
   "property": "C29",
   "status": "partial",
   "theorems": [
    "SeQuant.Optimize.add_correct",
    "SeQuant.Optimize.scale_correct",
    "SeQuant.Optimize.sub_correct",
    "SeQuant.Optimize.div_correct",
    "SeQuant.Optimize.make_correct_partial",
    "SeQuant.Optimize.ops_eq",
    "SeQuant.Optimize.entry_lt_irrefl",
    "SeQuant.Optimize.entry_lt_trans",
    "SeQuant.Optimize.entry_lt_total",
    "SeQuant.Optimize.cost_lt_iff",
    "SeQuant.Optimize.cost_lt_irrefl",
    "SeQuant.Optimize.cost_lt_trans",
    "SeQuant.Optimize.cost_lt_total",
    "SeQuant.Optimize.cost_eqv_iff",
    "SeQuant.Optimize.cost_compare",
    "SeQuant.Optimize.cost_lt_growth_partial",
    "SeQuant.Optimize.compatible_exists",
    "SeQuant.Optimize.cost_lt_eventually_partial",
    "SeQuant.Optimize.constant_dropped",
    "SeQuant.Optimize.negative_cost_order",
    "SeQuant.Optimize.scale_zero_not_zero",
    "SeQuant.Optimize.max_minus_max"
   ],
   "note": "strict total order, sums and multiples for all costs; agreement with growth needs positive prefactors; constants are dropped, multiples by zero and negative costs are ordered wrongly (witnesses)"
  },
  {
   "property": "C30",
   "status": "partial",
   "theorems": [
    "SeQuant.Optimize.runAdditive_optimal",
    "SeQuant.Optimize.single_term_optimal_partial",
    "SeQuant.Optimize.single_term_optimal_pruned_partial",
    "SeQuant.Optimize.singleTermSeq_optimal_partial",
    "SeQuant.Optimize.singleTermSeq_optimal_pruned_partial",
    "SeQuant.Optimize.singleTermSeq_pruning_not_optimal",
    "SeQuant.Optimize.connectedSubset_iff",
    "SeQuant.Optimize.flops_plain",
    "SeQuant.Optimize.memsize_plain"
   ],
   "note": "least cost among all trees without pruning or for disconnected networks; with the default pruning least among trees without outer products, and a witness (60 instead of 44) shows that it is not the least of all. Sharing of common sub-networks (a heuristic) is not covered"
  },
  {
   "property": "C31",
   "status": "partial",
   "theorems": [
    "SeQuant.Optimize.single_term_sequence",
    "SeQuant.Optimize.runAdditive_wellformed",
    "SeQuant.Optimize.singleTermSeq_good",
    "SeQuant.Optimize.singleTermExpr_val_partial",
    "SeQuant.Optimize.singleTermExpr_none",
    "SeQuant.Optimize.singleTermExpr_some_partial",
    "SeQuant.Optimize.optMixed_val_partial",
    "SeQuant.Optimize.optE_val_partial",
    "SeQuant.Optimize.OptInst.singleTermExpr_scalar_twice",
    "SeQuant.Optimize.OptInst.singleTermExpr_one_tensor",
    "SeQuant.Optimize.OptInst.singleTermExpr_no_tensor",
    "SeQuant.Optimize.CTree.value_full"
   ],
   "note": "sequences are well-formed; every expression returned has the value of the original if scalar factors are not products with a scalar of their own (witness: that scalar counts twice); fewer than two tensors among three or more factors fail (witnesses)"
  },
  {
   "property": "C32",
   "status": "proved",
   "theorems": [
    "SeQuant.Optimize.pareto_exact",
    "SeQuant.Optimize.pareto_values",
    "SeQuant.Optimize.pareto_antichain",
    "SeQuant.Optimize.paretoBest_spec"
   ],
   "note": "the frontier as a list: exactly the non-dominated points, of equal ones the first, in order of insertion"
  },
  {
   "property": "C33",
   "status": "partial",
   "theorems": [
    "SeQuant.Optimize.subsetTargets_mem",
    "SeQuant.Optimize.subsetTargets_exact_partial",
    "SeQuant.Optimize.subsetTargets_drops_target",
    "SeQuant.Optimize.subsetTargets_kept",
    "SeQuant.Optimize.ltrImed_exact",
    "SeQuant.Optimize.ltrChildren_exact",
    "SeQuant.Optimize.CTree.value_eq",
    "SeQuant.Optimize.uniqTensor_exact",
    "SeQuant.Optimize.uniqProduct_exact",
    "SeQuant.Optimize.uniqProduct_tensors_partial",
    "SeQuant.Optimize.uniqProduct_triple",
    "SeQuant.Optimize.uniqSum_first"
   ],
   "note": "membership characterised for all networks and subsets; an index of the result that occurs only inside the subset is dropped (witness). get_unique_indices: exact lists for tensors and products; indices that occur more than twice and sums with a first summand without indices refute the claim (witnesses)"
  },
  {
   "property": "C34",
   "status": "partial",
   "theorems": [
    "SeQuant.Export.optimize_preserves_partial",
    "SeQuant.Export.optimizeAll_preserves_partial",
    "SeQuant.Export.optimize_work",
    "SeQuant.Export.cancelLoop_done",
    "SeQuant.Export.GenInst.optimize_drops_persist",
    "SeQuant.Export.GenInst.optimize_drops_zero",
    "SeQuant.Export.GenInst.optimize_keeps_dirty",
    "SeQuant.Export.GenInst.optimize_rejects",
    "SeQuant.Export.GenInst.optimize_erases_compute",
    "SeQuant.Export.GenInst.optimize_empty"
   ],
   "note": "with active assertions, memory, store and all computed values are kept for every program that reloads only unloaded objects whose value was not lost; computations are kept for every program. Persisting, zeroing and reloading of changed objects may be dropped, overlapping pairs fail an assertion or (assertions off) erase a computation, empty queues are read out of bounds (witnesses)"
  },
  {
   "property": "C35",
   "status": "proved",
   "theorems": [
    "SeQuant.Optimize.fuseLeft_correct",
    "SeQuant.Optimize.fuseRight_correct",
    "SeQuant.Optimize.fuseScalar_correct",
    "SeQuant.Optimize.fuseScalar_none",
    "SeQuant.Optimize.fuseLeft_some",
    "SeQuant.Optimize.commonPrefix_spec",
    "SeQuant.Optimize.FusionInst.fuse_zero"
   ],
   "note": "whenever a fused expression is returned it has the value of the sum; two zero scalars divide by zero (witness), complex scalars fail an assertion"
  },
  {
   "property": "C36",
   "status": "proved",
   "theorems": [
    "SeQuant.Optimize.clustersOf_perm",
    "SeQuant.Optimize.clustersSum_perm",
    "SeQuant.Optimize.internal_pos",
    "SeQuant.Optimize.dfsLoop_total",
    "SeQuant.Optimize.reorderSum_val",
    "SeQuant.Optimize.reorderSum_perm",
    "SeQuant.Optimize.clusters_not_components",
    "SeQuant.Optimize.clusters_lose",
    "SeQuant.Optimize.SumInst.reorder_nested"
   ],
   "note": "every number of summands and all hash values; reorder succeeds for summands as Sum::append leaves them"
  },
  {
   "property": "C37",
   "status": "proved",
   "theorems": [
    "SeQuant.Arith.factorial_correct",
    "SeQuant.Arith.memvals_correct",
    "SeQuant.Arith.memvals_grow",
    "SeQuant.Arith.mutual_exclusion",
    "SeQuant.Arith.no_deadlock",
    "SeQuant.Arith.step_rank",
    "SeQuant.Arith.values_correct",
    "SeQuant.Arith.pow2_correct"
   ],
   "note": "every history of calls and steps of any number of threads; values, growth of the table, mutual exclusion, absence of deadlock, bounded number of steps"
  },
  {
   "property": "C38",
   "status": "partial",
   "theorems": [
    "SeQuant.Arith.toRational_error",
    "SeQuant.Arith.toRational_simplest",
    "SeQuant.Arith.toRational_total_partial",
    "SeQuant.Arith.toRational_terminates",
    "SeQuant.Arith.toRational_throws",
    "SeQuant.Arith.toRational_negative",
    "SeQuant.Arith.toRational_nan"
   ],
   "note": "what is returned is within eps and has the least denominator; it returns if 2 eps (max_niter + 1) > 1; with 1000 rounds and default precision it throws for 1/5000 (witness)"
  },
  {
   "property": "C39",
   "status": "partial",
   "theorems": [
    "SeQuant.Serial.roundtrip_partial",
    "SeQuant.Serial.roundtrip_exact_partial",
    "SeQuant.Serial.read_terminates",
    "SeQuant.Serial.groupsP_scripts",
    "SeQuant.Serial.ascii_ok",
    "SeQuant.Serial.roundtrip_fails_imaginary",
    "SeQuant.Serial.roundtrip_fails_complex",
    "SeQuant.Serial.roundtrip_fails_nested",
    "SeQuant.Serial.roundtrip_fails_empty",
    "SeQuant.Serial.roundtrip_fails_inf",
    "SeQuant.Serial.roundtrip_fails_large",
    "SeQuant.Serial.roundtrip_fails_slots",
    "SeQuant.Serial.roundtrip_fails_label",
    "SeQuant.Serial.roundtrip_fails_symmetry",
    "SeQuant.Serial.read_splits_subscript"
   ],
   "note": "round trip for every expression within the limits of the grammar (same value; the same expression if it is normalised), reading terminates for every text; each of the limits is necessary (refutations)"
  },
  {
   "property": "C40",
   "status": "partial",
   "theorems": [
    "SeQuant.Contexts.scope_restores_partial",
    "SeQuant.Contexts.scope_begins",
    "SeQuant.Contexts.guardedAll_inForce",
    "SeQuant.Contexts.scope_content_partial",
    "SeQuant.Contexts.scope_equal_transparent",
    "SeQuant.Contexts.getDefault_value",
    "SeQuant.Contexts.getDefault_keeps",
    "SeQuant.Contexts.set_inForce",
    "SeQuant.Contexts.set_inForce_other",
    "SeQuant.Contexts.scopedMap_inForce",
    "SeQuant.Contexts.setEntry_sorted",
    "SeQuant.Contexts.mapEq_true_iff",
    "SeQuant.Contexts.setEntries_find",
    "SeQuant.Contexts.reset_inForce",
    "SeQuant.Contexts.scope_equal_leaks",
    "SeQuant.Contexts.scope_ignores_designations",
    "SeQuant.Contexts.scope_null_ub",
    "SeQuant.Contexts.scope_registry_leaks"
   ],
   "note": "every nesting and history: restored if the scope differs from the contexts in force at its beginning. A scope begun with equal contexts restores nothing, contexts that differ in the designated spaces only are taken for equal, contexts without registry dereference null, the content of shared registries is not restored (witnesses)"
  },
  {
   "property": "C41",
   "status": "proved",
   "theorems": [
    "SeQuant.Tensors.canonCore_value",
    "SeQuant.Tensors.canonBlock_value",
    "SeQuant.Tensors.canonCore_terminates",
    "SeQuant.Tensors.canonCore_keeps",
    "SeQuant.Tensors.orient_keeps",
    "SeQuant.Tensors.orient_canonical",
    "SeQuant.Tensors.canonCore_unique_symm",
    "SeQuant.Tensors.canonCore_unique_nonsymm"
   ],
   "note": "every tensor, all comparators and every value with the declared symmetry, for both canonicalizers; also: the canonical slots depend only on the class if the comparators are strict total orders"
  },
  {
   "property": "C42",
   "status": "proved",
   "theorems": [
    "SeQuant.Mbpt.genUnique_complete",
    "SeQuant.Mbpt.coset_representative",
    "SeQuant.Mbpt.coset_term",
    "SeQuant.Mbpt.swapNext_eq"
   ],
   "note": "every list of group sizes; existence and uniqueness of representatives, signs, and equality of the signed terms within a class"
  },
  {
   "property": "C43",
   "status": "partial",
   "theorems": [
    "SeQuant.Mbpt.combineSpace_sound",
    "SeQuant.Mbpt.combineSpace_exact",
    "SeQuant.Mbpt.combinePhysical_eq",
    "SeQuant.Mbpt.applyToVac_sound",
    "SeQuant.Mbpt.canChange_sound",
    "SeQuant.Mbpt.vacuum_average_kept",
    "SeQuant.Mbpt.adjoint_combine",
    "SeQuant.Mbpt.adjointQ_involutive",
    "SeQuant.Mbpt.adjointQ_mem",
    "SeQuant.Mbpt.genericExcitation_sound_partial",
    "SeQuant.Mbpt.intervalExcitation_sound",
    "SeQuant.Mbpt.adjoint_excitation",
    "SeQuant.Mbpt.adjoint_intervalExcitation",
    "SeQuant.Mbpt.combine_vacuum",
    "SeQuant.Mbpt.excitation_composite",
    "SeQuant.Mbpt.composite_screened",
    "SeQuant.Mbpt.genericExcitation_physical_swapped"
   ],
   "note": "screening is sound for every product, contraction scheme and number of base spaces if the quantum numbers given to the operators bound them; the bounds made for excitations in composite spaces and for the physical vacuum do not (witnesses)"
  },
  {
   "property": "C44",
   "status": "proved",
   "theorems": [
    "SeQuant.Wick.uptri_range",
    "SeQuant.Wick.uptri_inj",
    "SeQuant.Wick.uptri_surj",
    "SeQuant.Wick.ntri_choose",
    "SeQuant.Wick.lowtri_range",
    "SeQuant.Wick.lowtri_inj"
   ],
   "note": "All n and all pairs below the diagonal bound."
  },
  {
   "property": "C45",
   "status": "proved",
   "theorems": [
    "SeQuant.Wick.disconnect_connect",
    "SeQuant.Wick.connect_rejected",
    "SeQuant.Wick.connect_consistent",
    "SeQuant.Wick.init_consistent",
    "SeQuant.Wick.search_restores"
   ],
   "note": "All configurations, all consistent states, and all nested searches that contract a pair at most once along a path and keep the order of normal operators and operator partitions."
  },
  {
   "property": "C46",
   "status": "partial",
   "theorems": [
    "SeQuant.Spaces.pureOccupied_wrong",
    "SeQuant.Spaces.pureOccupied_partial",
    "SeQuant.Spaces.occupancy_correct"
   ],
   "note": "is_pure_occupied compares masks as integers (witness of a wrong answer); right if the occupied types are the lowest bits. The other tests are right for all masks."
  },
  {
   "property": "C47",
   "status": "proved",
   "theorems": [
    "SeQuant.Optimize.runPeak_optimal",
    "SeQuant.Optimize.solve_front",
    "SeQuant.Optimize.rootChoice_spec",
    "SeQuant.Optimize.seqPeak_rpn"
   ],
   "note": "for the unbatched peak model with exact arithmetic; peak memory is that of a machine that keeps inputs resident and releases operands after each contraction"
  },
  {
   "property": "C48",
   "status": "partial",
   "theorems": [
    "SeQuant.Mbpt.commutesOp_of_uncontractible_partial",
    "SeQuant.Mbpt.commutesOp_self",
    "SeQuant.Mbpt.commutesOp_wrong",
    "SeQuant.Mbpt.commutesOp_general"
   ],
   "note": "refuted: operators of equal quantum numbers and general operators are always reported as commuting (matrix witness); operators without contractions either way are reported as commuting"
  },
  {
   "property": "C49",
   "status": "partial",
   "theorems": [
    "SeQuant.Contexts.guard_once_partial",
    "SeQuant.Contexts.guard_exact_partial",
    "SeQuant.Contexts.guard_bound",
    "SeQuant.Contexts.guard_move_twice",
    "SeQuant.Contexts.guard_move_release"
   ],
   "note": "guards that are not moved act exactly once unless released; a moved guard acts twice (witness)"
  },
  {
   "property": "C50",
   "status": "partial",
   "theorems": [
    "SeQuant.Mbpt.elementTerms_coeff",
    "SeQuant.Mbpt.genUnique_signs",
    "SeQuant.Mbpt.elementTerms_drops_scalar"
   ],
   "note": "the signs and constants are right for every product; the scalar of the product is ignored (refuted)"
  },
  {
   "property": "C51",
   "status": "partial",
   "theorems": [
    "SeQuant.Tensors.canonicalizeSlots_columns",
    "SeQuant.Tensors.canonicalizeSlots_value",
    "SeQuant.Tensors.canonicalizeSlots_layout",
    "SeQuant.Tensors.slots_not_unique"
   ],
   "note": "the columns are kept, so the value; the slots do not depend on the columns only (refuted)"
  },
  {
   "property": "C52",
   "status": "partial",
   "theorems": [
    "SeQuant.Spins.closedProduct_value_partial",
    "SeQuant.Spins.closedShell_value_partial"
   ],
   "note": "every sum of products of nonsymmetric tensors with complete columns, any ranks and numbers of tensors and external pairs, including that the assertions hold if the indices are linked up; missing: unequal ranks, auxiliary indices, the canonicalization before the count"
  },
  {
   "property": "C53",
   "status": "partial",
   "theorems": [
    "SeQuant.Spins.expandAntisymmT_value_partial",
    "SeQuant.Spins.expandAntisymm_value_partial",
    "SeQuant.Spins.expandAntisymmT_total",
    "SeQuant.Spins.expandAntisymm_total",
    "SeQuant.Spins.expandAntisymmT_shape",
    "SeQuant.Spins.expandAntisymm_repeated_violated"
   ],
   "note": "every expression with products of constants, tensors and variables, every rank; false for repeated indices (refuted)"
  },
  {
   "property": "C54",
   "status": "partial",
   "theorems": [
    "SeQuant.Spins.expandAProd_value_partial",
    "SeQuant.Spins.sProduct_value_partial",
    "SeQuant.Spins.sSummands_kept",
    "SeQuant.Spins.symmetrize_sMaps_value_partial",
    "SeQuant.Spins.symmetrize_unequal_throws",
    "SeQuant.Spins.expandP_value_partial",
    "SeQuant.Spins.expandA_sum",
    "SeQuant.Spins.expandA_nested_violated",
    "SeQuant.Spins.expandA_two_violated",
    "SeQuant.Spins.expandP_two_violated",
    "SeQuant.Spins.sMaps_variable_violated"
   ],
   "note": "products of tensors and variables with one operator, every rank and scalar; false for nested sums, two operators and variables in sums (refuted)"
  },
  {
   "property": "C55",
   "status": "partial",
   "theorems": [
    "SeQuant.Spins.traceProduct_value_partial",
    "SeQuant.Spins.spintrace_value_partial",
    "SeQuant.Spins.spintrace_A_partial",
    "SeQuant.Spins.spintrace_nonsymm_violated",
    "SeQuant.Spins.spintrace_aux_violated",
    "SeQuant.Spins.spintrace_empty_violated",
    "SeQuant.Spins.traceProduct_64_violated"
   ],
   "note": "every sum of products of tensors without auxiliary indices, with fewer than 64 spins to choose; with removal of spin labels all tensors of rank two or more antisymmetric; false for nonsymmetric tensors, auxiliary indices, the empty sum (refuted)"
  },
  {
   "property": "C56",
   "status": "partial",
   "theorems": [
    "SeQuant.Binarize.binarize_value_partial",
    "SeQuant.Binarize.binarize_tens_partial",
    "SeQuant.Binarize.value_tens",
    "SeQuant.Binarize.dataSymm_of_respects",
    "SeQuant.Binarize.canonTen_idx",
    "SeQuant.Binarize.leaf_sign_lost",
    "SeQuant.Binarize.binarize_value_violated",
    "SeQuant.Binarize.binarize_trace_violated"
   ],
   "note": "every expression whose tensors have distinct indices and a canonical form of the same sign, sums with equal indices; false for leaves whose canonicalization changes the sign and for lone tensors with a repeated index (refuted); missing: proto-indices, Power, symmetry of the slot canonicalization of networks (a parameter)"
  },
  {
   "property": "C57",
   "status": "partial",
   "theorems": [
    "SeQuant.Binarize.same_sound_partial",
    "SeQuant.Binarize.cached_value_partial",
    "SeQuant.Binarize.bin_net",
    "SeQuant.Binarize.adjLaw_full",
    "SeQuant.Binarize.cmpCfg_net",
    "SeQuant.Binarize.same_sum_violated",
    "SeQuant.Binarize.same_adjoint_violated",
    "SeQuant.Binarize.same_phase_violated",
    "SeQuant.Binarize.same_op_collision"
   ],
   "note": "all trees without sums, all arrays, hash functions and histories, given that canonical graphs tell networks apart (shown for an instance); false for sums, for adjoint tensors with different numbers of bra indices, for scalar networks with a phase (refuted); operations are not compared"
  },
  {
   "property": "C58",
   "status": "proved",
   "theorems": [
    "SeQuant.Vertices.make_rep",
    "SeQuant.Vertices.erase_rep",
    "SeQuant.Vertices.erase_fails",
    "SeQuant.Vertices.insert_rep",
    "SeQuant.Vertices.insert_throws",
    "SeQuant.Vertices.rep_group",
    "SeQuant.Vertices.rep_groupSize",
    "SeQuant.Vertices.rep_numNonempty",
    "SeQuant.Vertices.history_rep"
   ],
   "note": "all sequences of edges, every equivalence, every history of insertions and erasures, including when they fail"
  },
  {
   "property": "C59",
   "status": "partial",
   "theorems": [
    "SeQuant.Vertices.history_current_partial",
    "SeQuant.Vertices.step_current",
    "SeQuant.Vertices.mk_current",
    "SeQuant.Vertices.creators_eq",
    "SeQuant.Vertices.erase_hash_violated",
    "SeQuant.Vertices.transform_hug_violated"
   ],
   "note": "every history without erasing or inserting while a hash value is memoized and without changes of kinds while there is a vertex; both fail otherwise (refuted)"
  },
  {
   "property": "C60",
   "status": "partial",
   "theorems": [
    "SeQuant.Rules.df_value_partial",
    "SeQuant.Rules.df_twice_violated"
   ],
   "note": "every expression without indices of the auxiliary space; false otherwise, e.g. when two tensors are fitted one after the other (refuted)"
  },
  {
   "property": "C61",
   "status": "partial",
   "theorems": [
    "SeQuant.Rules.thc_value_partial",
    "SeQuant.Rules.thc_rank_violated"
   ],
   "note": "every expression without indices of the auxiliary space in which the factors to replace have rank two; for other ranks an assertion fails (refuted)"
  },
  {
   "property": "C62",
   "status": "partial",
   "theorems": [
    "SeQuant.Rules.csv_value_partial",
    "SeQuant.Rules.csv_overlap_violated",
    "SeQuant.Rules.csv_null_violated"
   ],
   "note": "every expression, all ranks and patterns of proto-indices, if overlaps in one product use different indices and auxiliary indices have no proto-indices; false otherwise (refuted)"
  },
  {
   "property": "C63",
   "status": "partial",
   "theorems": [
    "SeQuant.Lst.lst_value",
    "SeQuant.Lst.lst_campbell",
    "SeQuant.Lst.lst_exp",
    "SeQuant.Lst.lst_connected_partial",
    "SeQuant.Lst.lst_total",
    "SeQuant.Lst.ad_pow",
    "SeQuant.Lst.series_exp",
    "SeQuant.Lst.lst_connected_scalar"
   ],
   "note": "default and unitary form: every expression, rank and generator, completion included, given that simplify and transform_sum_expr keep values (C13, C16); connected form: expressions of operators and sum-free products; products of scalars are multiplied by the generator there (refuted)"
  },
  {
   "property": "C64",
   "status": "proved",
   "theorems": [
    "SeQuant.Lst.screen_value",
    "SeQuant.Lst.screen_term"
   ],
   "note": "every expression and average, given sound screening of products (C43) and that simplify and transform_sum_expr keep values"
  },
  {
   "property": "C65",
   "status": "partial",
   "theorems": [
    "SeQuant.Rules.pop_removes",
    "SeQuant.Rules.pop_free_partial",
    "SeQuant.Rules.pop_once_partial",
    "SeQuant.Rules.pop_alone",
    "SeQuant.Rules.pop_alone_term",
    "SeQuant.Rules.pop_twice",
    "SeQuant.Rules.pop_order",
    "SeQuant.Rules.pop_scalar_product",
    "SeQuant.Rules.pop_zero_factor"
   ],
   "note": "what is removed and returned: every expression; the value: if each term contains the tensor once together with another factor; false for lone tensors, multiples of them, tensors occurring twice, terms without the tensor before the first with it (refuted)"
  },
  {
   "property": "C66",
   "status": "partial",
   "theorems": [
    "SeQuant.Network.canonGraph_value_partial",
    "SeQuant.Network.canonGraph_default_partial",
    "SeQuant.Network.canonGraph_total",
    "SeQuant.Network.canonGraph_total'",
    "SeQuant.Network.canonGraph_refuted",
    "SeQuant.Network.canonGraph_capture"
   ],
   "note": "every network in which different anonymous indices differ in space or ordinal and, if the named indices are given, these contain all proto-indices that are in no slot; false otherwise (refuted)"
  },
  {
   "property": "C67",
   "status": "partial",
   "theorems": [
    "SeQuant.Network.canonicalize_value_partial",
    "SeQuant.Network.canonicalize_default_partial",
    "SeQuant.Network.canonicalize_externals_partial",
    "SeQuant.Network.canonicalize_refuted",
    "SeQuant.Network.tcmp_strictWeak",
    "SeQuant.Network.tcmp_strictWeak_labels",
    "SeQuant.Network.tcmp_refuted"
   ],
   "note": "as C66, and with the lexicographic method all named indices must be in slots; false otherwise (refuted); the comparator is a strict weak order if labels tell which tensors do not commute, not in general (refuted)"
  },
  {
   "property": "C68",
   "status": "partial",
   "theorems": [
    "SeQuant.Network.sort_via_ordinals_result",
    "SeQuant.Network.sort_via_ordinals_refuted",
    "SeQuant.Network.canonGraph_ordinals_refuted",
    "SeQuant.Network.canonLex_ordinals_partial"
   ],
   "note": "sort_via_ordinals sorts but returns 0, ..., n-1 always, so the ordinals do not follow the tensors (refuted); the lexicographic stage before its final sort does track them"
  },
  {
   "property": "C69",
   "status": "proved",
   "theorems": [
    "SeQuant.Network.initEdges_spec",
    "SeQuant.Network.ext_indices_spec",
    "SeQuant.Network.ext_indices_order"
   ],
   "note": "every network, given that the order of indices is total; add_vertex does not throw"
  },
  {
   "property": "C70",
   "status": "partial",
   "theorems": [
    "SeQuant.Reduce.reduce_value",
    "SeQuant.Reduce.reduce_value_partial",
    "SeQuant.Reduce.registry_exact",
    "SeQuant.Reduce.maskEnv_exact",
    "SeQuant.Reduce.reduce_loop_refuted",
    "SeQuant.Reduce.reduce_external_refuted",
    "SeQuant.Reduce.reduce_spin_refuted"
   ],
   "note": "every product in which each summed index occurs in a factor other than a delta, if intersections of spaces are exact (true for registries with one set of quantum numbers) and external indices are not named like temporary ones; without the first condition the value is off by the sizes of the spaces of lost indices; false without each of the conditions (refuted); proto-indices not modelled"
  },
  {
   "property": "C71",
   "status": "partial",
   "theorems": [
    "SeQuant.Reduce.reduce_total",
    "SeQuant.Reduce.reduce_fuel",
    "SeQuant.Reduce.reduce_complete_partial",
    "SeQuant.Reduce.reduce_incomplete"
   ],
   "note": "termination and exceptions: every product; completeness: deltas between internal indices; a delta between an internal and an external index of the same space can remain (refuted)"
  },
  {
   "property": "C72",
   "status": "partial",
   "theorems": [
    "SeQuant.Codegen.export_value_partial",
    "SeQuant.Codegen.export_expanded_partial",
    "SeQuant.Codegen.exportAll_partial",
    "SeQuant.Codegen.pruneL_complete",
    "SeQuant.Codegen.pruneR_complete",
    "SeQuant.Codegen.Sample.export_zeroes_partial_sum",
    "SeQuant.Codegen.Sample.export_loses_scalar",
    "SeQuant.Codegen.Sample.export_ignores_phase",
    "SeQuant.Codegen.Sample.export_ignores_conjugation"
   ],
   "note": "proved for expanded expressions and, more generally, whenever no scalar factor is attached to a sum with internal operands and no sum of two internal operands is accumulated in a reused object, without phases of leaves and with adjoints only over real numbers; false without each of the conditions (refuted); contexts with batch indices or user-set strategies not modelled"
  },
  {
   "property": "C73",
   "status": "partial",
   "theorems": [
    "SeQuant.Codegen.export_runs",
    "SeQuant.Codegen.export_clean_partial",
    "SeQuant.Codegen.exportAll_partial",
    "SeQuant.Codegen.Sample.export_leaks"
   ],
   "note": "everything but the empty memory at the end: every well-formed tree; empty memory: expanded expressions; sums of internal nodes inside products stay in memory (refuted)"
  },
  {
   "property": "C74",
   "status": "proved",
   "theorems": [
    "SeQuant.Codegen.export_declares"
   ],
   "note": "every well-formed tree whose inputs and intermediates have different stems of labels"
  },
  {
   "property": "C75",
   "status": "partial",
   "theorems": [
    "SeQuant.Cse.toExpr_value_partial",
    "SeQuant.Cse.toExpr_gives",
    "SeQuant.Cse.addTo_total",
    "SeQuant.Cse.toExpr_sum_violated",
    "SeQuant.Cse.toExpr_var_violated",
    "SeQuant.Cse.toExpr_scalar_violated",
    "SeQuant.Cse.toExpr_consts_fails"
   ],
   "note": "proved for trees with the indices of binarization, without phases of leaves, in which constants multiply tensors or products without a scalar, and summands are neither constants nor zeros; false otherwise: scaled sums, scaled variables and nested scalars are refuted, a product of two constants fails an assertion"
  },
  {
   "property": "C76",
   "status": "partial",
   "theorems": [
    "SeQuant.Cse.eliminate_value_partial",
    "SeQuant.Cse.eliminate_names_partial",
    "SeQuant.Cse.binTrans_laws",
    "SeQuant.Cse.binRes_value",
    "SeQuant.Cse.eliminate_sign_violated"
   ],
   "note": "proved when every common subexpression has phase 1 and the trees satisfy the conditions of C75; with phase -1 the sign of the results changes (refuted)"
  },
  {
   "property": "C77",
   "status": "proved",
   "theorems": [
    "SeQuant.Cse.eliminate_layout",
    "SeQuant.Cse.eliminate_capacity",
    "SeQuant.Cse.eliminate_complete",
    "SeQuant.Cse.eliminate_twice",
    "SeQuant.Cse.binTrans_reads",
    "SeQuant.Cse.sameB_equiv",
    "SeQuant.Cse.used_once"
   ],
   "note": "each definition is used at least once, but not always twice (used_once)"
  },
  {
   "property": "C78",
   "status": "proved",
   "theorems": [
    "SeQuant.Cse.extract_spec",
    "SeQuant.Cse.extract_tree",
    "SeQuant.Cse.cut_self",
    "SeQuant.Cse.nested_extracted",
    "SeQuant.Cse.deep_predicate"
   ],
   "note": "proved for predicates that look no further than at the children; for others the trees seen have changed (deep_predicate); what the documentation says about nested subtrees is not the case (nested_extracted)"
  },
  {
   "property": "C79",
   "status": "proved",
   "theorems": [
    "SeQuant.Batch.modeBatches_spec",
    "SeQuant.Batch.modeBatches_greedy",
    "SeQuant.Batch.slice_batch"
   ],
   "note": "arrays of arrays not modelled"
  },
  {
   "property": "C80",
   "status": "partial",
   "theorems": [
    "SeQuant.Batch.batched_correct_partial",
    "SeQuant.Batch.batched_sound_partial",
    "SeQuant.Batch.evaluate_batched_partial",
    "SeQuant.Batch.batched_entries_partial",
    "SeQuant.Batch.layersOf_spec",
    "SeQuant.Batch.layerPass_spec",
    "SeQuant.Batch.storeResults_spec",
    "SeQuant.Batch.batchAxis_best",
    "SeQuant.Batch.batchAxis_largest",
    "SeQuant.Batch.batchAxis_none",
    "SeQuant.Batch.nested_dummy_violated",
    "SeQuant.Batch.subtreeAny_iff",
    "SeQuant.Batch.makeScratch_seeds"
   ],
   "note": "proved for trees in which an index contracted by a product is not contracted or used again below with another meaning (false otherwise, nested_dummy_violated) and for keys such that nodes with equal keys have equal values up to sign and, below, counterparts with equal keys and positions; arrays of arrays, screening thresholds and logging not modelled"
  },
  {
   "property": "C81",
   "status": "partial",
   "theorems": [
    "SeQuant.Symm.columnSymmetrizeTA_spec",
    "SeQuant.Symm.columnSymmetrizeToT_spec",
    "SeQuant.Symm.columnSymmetrizeBtas_spec",
    "SeQuant.Symm.antisymmetrizeTA_spec",
    "SeQuant.Symm.antisymmetrizeTapp_spec",
    "SeQuant.Symm.antisymmetrizeBtas_partial",
    "SeQuant.Symm.antisymmetrizeBtas_fresh",
    "SeQuant.Symm.SymOf.symmetric",
    "SeQuant.Symm.SymOf.fixed",
    "SeQuant.Symm.SymOf.twice",
    "SeQuant.Symm.AntiOf.antisymmetric",
    "SeQuant.Symm.AntiOf.fixed",
    "SeQuant.Symm.AntiOf.twice"
   ],
   "note": "antisymmetrization with BTAS only if newly constructed arrays of BTAS hold zeros (antisymmetrizeBtas_fresh otherwise); rounding of the normalization factor not modelled; inner arrays have one shape"
  },
  {
   "property": "C82",
   "status": "partial",
   "theorems": [
    "SeQuant.Biorth.coefficients_exist",
    "SeQuant.Biorth.biorthRow_correct",
    "SeQuant.Biorth.hardMatrix_partial",
    "SeQuant.Biorth.hardMatrix_small",
    "SeQuant.Biorth.hardMatrix_wrong",
    "SeQuant.Biorth.coefficients_diagonal",
    "SeQuant.Biorth.nnsTable_correct",
    "SeQuant.Biorth.computeWeights_form",
    "SeQuant.Biorth.ov_spins",
    "SeQuant.Biorth.cycles_eq",
    "SeQuant.Biorth.Lib.rank_unrank",
    "SeQuant.Biorth.Lib.unrank_rank"
   ],
   "note": "rows, first and last row of the matrix, and weights are right for all numbers of particles in the tables; the rest of the matrix is right for one and two particles and wrong for three to five (hardMatrix_wrong); libperm is assumed to number permutations as Myrvold and Ruskey; the pseudoinverse for more particles is computed in floating point by Eigen, not modelled"
  },
  {
   "property": "C83",
   "status": "proved",
   "theorems": [
    "SeQuant.Biorth.nnsProject_spec",
    "SeQuant.Biorth.ProjOf.twice",
    "SeQuant.Biorth.ProjOf.null",
    "SeQuant.Biorth.ProjOf.range",
    "SeQuant.Biorth.ProjOf.overlap",
    "SeQuant.Biorth.weights_eq"
   ],
   "note": "exact arithmetic; for more than five modes the pseudoinverse passed in is assumed to be that of the overlap"
  },
  {
   "property": "C84",
   "status": "partial",
   "theorems": [
    "SeQuant.Biorth.transformSingle_value",
    "SeQuant.Biorth.Biorthogonalizer.spec",
    "SeQuant.Biorth.coefficients_form",
    "SeQuant.Biorth.replacements_spec",
    "SeQuant.Biorth.replacements_correct_iff",
    "SeQuant.Biorth.replacements_wrong",
    "SeQuant.Biorth.transformSingle_empty",
    "SeQuant.Biorth.transformOne_spec",
    "SeQuant.Biorth.createFor_same",
    "SeQuant.Biorth.Repl.emplace_find"
   ],
   "note": "proved for one expression whose second external indices have one space; for several spaces the replacements are right exactly for the permutations in replacements_correct_iff and wrong for others (replacements_wrong); without external indices it throws; several results at once with three or more particles use the wrong matrix of C82"
  },
  {
   "property": "C85",
   "status": "proved",
   "theorems": [
    "SeQuant.Biorth.transformExpr_spec",
    "SeQuant.Biorth.transformTerms_spec",
    "SeQuant.Biorth.transformFactors_ok",
    "SeQuant.Biorth.transformFactors_error"
   ],
   "note": "values before summation over repeated indices"
  },
  {
   "property": "C86",
   "status": "partial",
   "theorems": [
    "SeQuant.Memo.memo_once",
    "SeQuant.Memo.memo_fresh",
    "SeQuant.Memo.single_correct",
    "SeQuant.Memo.single_progress",
    "SeQuant.Memo.single_thrown",
    "SeQuant.Memo.stale_dangles",
    "SeQuant.Memo.stale_wrong",
    "SeQuant.Memo.wait_wrong",
    "SeQuant.Memo.thrown_hangs"
   ],
   "note": "at most one computation per key and right values in the cache always; references right as long as no other key is inserted; for one key right, and progress without exceptions; false otherwise: references dangle after the insertion of another key (stale_dangles, stale_wrong, wait_wrong), and after an exception later callers wait forever (thrown_hangs)"
  },
  {
   "property": "C87",
   "status": "partial",
   "theorems": [
    "SeQuant.Dense.offset_lt",
    "SeQuant.Dense.unravel_offset",
    "SeQuant.Dense.offset_unravel",
    "SeQuant.Dense.Arr.ext_at",
    "SeQuant.Dense.contractBtas_spec",
    "SeQuant.Dense.contractTapp_spec",
    "SeQuant.Dense.contractTapp_accumulate",
    "SeQuant.Dense.permuteBtas_spec",
    "SeQuant.Dense.permuteTapp_spec",
    "SeQuant.Dense.dot_spec",
    "SeQuant.Dense.batchedContract_spec",
    "SeQuant.Dense.prodBtas_tensor",
    "SeQuant.Dense.prodBtas_full",
    "SeQuant.Dense.prodTapp_tensor",
    "SeQuant.Dense.prodTapp_full",
    "SeQuant.Dense.prod_agree",
    "SeQuant.Dense.prodBtas_comm",
    "SeQuant.Dense.prodBtas_number",
    "SeQuant.Dense.prodTapp_number",
    "SeQuant.Dense.prod_numbers",
    "SeQuant.Dense.sumWith_spec",
    "SeQuant.Dense.sumWith_mixed",
    "SeQuant.Dense.permuteWith_spec",
    "SeQuant.Dense.adjointWith_spec",
    "SeQuant.Dense.adjointWith_twice",
    "SeQuant.Dense.multByPhase_spec",
    "SeQuant.Dense.multByPhase_scalar",
    "SeQuant.Dense.addInplace_spec",
    "SeQuant.Dense.addInplace_refuses",
    "SeQuant.Dense.prodTapp_trace",
    "SeQuant.Dense.sizeBtas_right_iff",
    "SeQuant.Dense.lonely_label"
   ],
   "note": "proved for annotations without repeated labels where every label is in two of the three places; library calls by their documented behaviour, exact arithmetic; lonely_label: with a batch label, a label of one factor only is not summed by BTAS but is by TAPP; prodTapp_trace: TAPP refuses repeated labels; sizeBtas_right_iff: the size in bytes of BTAS results is wrong"
  },
  {
   "property": "C88",
   "status": "proved",
   "theorems": [
    "SeQuant.Dense.handles_good",
    "SeQuant.Dense.handles_describe",
    "SeQuant.Dense.handles_freed",
    "SeQuant.Dense.handles_after"
   ],
   "note": "all programs of special member functions, also when the creation of a handle fails"
  },
  {
   "property": "C89",
   "status": "proved",
   "theorems": [
    "SeQuant.Scalar.Cplx.toC_inj",
    "SeQuant.Scalar.Cplx.toC_ofRat",
    "SeQuant.Scalar.Cplx.toC_add",
    "SeQuant.Scalar.Cplx.toC_sub",
    "SeQuant.Scalar.Cplx.toC_neg",
    "SeQuant.Scalar.Cplx.toC_mul",
    "SeQuant.Scalar.Cplx.toC_conj",
    "SeQuant.Scalar.Cplx.toC_addScalar",
    "SeQuant.Scalar.Cplx.toC_subScalar",
    "SeQuant.Scalar.Cplx.toC_mulScalar",
    "SeQuant.Scalar.Cplx.toC_scalarMul",
    "SeQuant.Scalar.Cplx.normSq_eq",
    "SeQuant.Scalar.Cplx.isZero_iff",
    "SeQuant.Scalar.Cplx.isIdentity_iff",
    "SeQuant.Scalar.Cplx.eqScalar_iff",
    "SeQuant.Scalar.Cplx.div_spec",
    "SeQuant.Scalar.Cplx.scalarDiv_spec",
    "SeQuant.Scalar.Cplx.abs_spec"
   ],
   "note": "rationals of Boost are exact"
  },
  {
   "property": "C90",
   "status": "proved",
   "theorems": [
    "SeQuant.Scalar.flatten_val",
    "SeQuant.Scalar.flatten_whole",
    "SeQuant.Scalar.flatten_half_iff",
    "SeQuant.Scalar.mulAssign_val",
    "SeQuant.Scalar.mulAssign_wf",
    "SeQuant.Scalar.mulAssign_const",
    "SeQuant.Scalar.mulAssign_ok_iff",
    "SeQuant.Scalar.conjugate_val",
    "SeQuant.Scalar.clone_eq",
    "SeQuant.Scalar.isZero_iff",
    "SeQuant.Scalar.isZero_var",
    "SeQuant.Scalar.mkPow_ok",
    "SeQuant.Scalar.mkPow_error"
   ],
   "note": "values are principal values of complex powers; products of powers of a variable need a value other than zero or exponents that are not negative"
  },
  {
   "property": "C91",
   "status": "partial",
   "theorems": [
    "SeQuant.Scalar.hash_right",
    "SeQuant.Scalar.step_fresh",
    "SeQuant.Scalar.run_hash_partial",
    "SeQuant.Scalar.adjoint_stale",
    "SeQuant.Scalar.clone_adjoint_stale",
    "SeQuant.Scalar.mulC_stale",
    "SeQuant.Scalar.flatten_stale",
    "SeQuant.Scalar.powLess_order",
    "SeQuant.Scalar.powLess_collision"
   ],
   "note": "right for all sequences without arithmetic in place of constants and adjoints of variables after their hash was asked for; these keep the old hash (adjoint_stale, mulC_stale, flatten_stale); the order is strict and total if hashes do not collide and not a weak order otherwise"
  },
  {
   "property": "C92",
   "status": "partial",
   "theorems": [
    "SeQuant.Layout.rewrite_perm",
    "SeQuant.Layout.rewrite_same",
    "SeQuant.Layout.rewrite_array_partial",
    "SeQuant.Layout.rewrite_array_sorters",
    "SeQuant.Layout.aux_clash",
    "SeQuant.Layout.aux_clash_row",
    "SeQuant.Layout.no_array",
    "SeQuant.Layout.rank_clash",
    "SeQuant.Layout.rewrite_twice",
    "SeQuant.Layout.rewrite_twice_row",
    "SeQuant.Layout.fastest_largest_partial",
    "SeQuant.Layout.particles_not_fastest",
    "SeQuant.Layout.aux_not_fastest",
    "SeQuant.Layout.less_strictWeak",
    "SeQuant.Layout.pairLess_strictWeak"
   ],
   "note": "one array if auxiliary slots have spaces of their own, always the same ones; false otherwise (aux_clash, aux_clash_row); the largest space is contiguous for symmetric tensors without auxiliary indices, not in general (particles_not_fastest, aux_not_fastest)"
  },
  {
   "property": "C93",
   "status": "proved",
   "theorems": [
    "SeQuant.Rdm.numClosedLoops_spin",
    "SeQuant.Rdm.numClosedLoops_le",
    "SeQuant.Rdm.numClosedLoops_open_chain_fails",
    "SeQuant.Rdm.numClosedLoops_unknown",
    "SeQuant.Rdm.numClosedLoops_diverges"
   ],
   "note": "for pairings of all particles; with open chains the assertion on the size of in_loop can fail (numClosedLoops_open_chain_fails), with repeated indices the loop need not end (numClosedLoops_diverges)"
  },
  {
   "property": "C94",
   "status": "proved",
   "theorems": [
    "SeQuant.Rdm.maxSimilarity_value",
    "SeQuant.Rdm.similarAtom_best",
    "SeQuant.Rdm.maxSimilarity_needs_products",
    "SeQuant.Rdm.spinSum_value",
    "SeQuant.Rdm.spinSum_singlet_only",
    "SeQuant.Rdm.originalMap_eq"
   ],
   "note": "simplify is a parameter that keeps values; summands must be products"
  },
  {
   "property": "C95",
   "status": "partial",
   "theorems": [
    "SeQuant.Rdm.cumuToDensity_eq",
    "SeQuant.Rdm.cumu2ToDensity_value_partial",
    "SeQuant.Rdm.cumu3ToDensity_fails",
    "SeQuant.Rdm.oneBodySub_value",
    "SeQuant.Rdm.twoBodyDecomp_value"
   ],
   "note": "cumu3_to_density fails for every argument (cumu3ToDensity_fails); antisymmetrize is a parameter, its terms are C42 and C50"
  },
  {
   "property": "C96",
   "status": "proved",
   "theorems": [
    "SeQuant.Itf.integral_value",
    "SeQuant.Itf.rewrite_integrals",
    "SeQuant.Itf.integral_canonical",
    "SeQuant.Itf.labelled_J_iff",
    "SeQuant.Itf.rewrite_others",
    "SeQuant.Itf.rewrite_disabled",
    "SeQuant.Itf.integral_other_symmetry_fails",
    "SeQuant.Itf.integral_equal_sizes_fails",
    "SeQuant.Itf.integral_unspecified_fails"
   ],
   "note": "for real orbitals (eightfold symmetry), which the code assumes without looking at the tensor; equivalent integrals are exported alike if different spaces have different sizes and the layout is row or column major, with witnesses for the other cases"
  },
  {
   "property": "C97",
   "status": "proved",
   "theorems": [
    "SeQuant.Itf.indexName_eq_iff",
    "SeQuant.Itf.indexName_inj",
    "SeQuant.Itf.indexName_inj_of_apart",
    "SeQuant.Itf.indexName_isSome",
    "SeQuant.Itf.representAll_names",
    "SeQuant.Itf.indexName_collision",
    "SeQuant.Itf.indexName_digit_collision",
    "SeQuant.Itf.indexName_bracket"
   ],
   "note": "indices of different spaces can have the same name (indexName_collision), and the limits for labels cannot be changed by users"
  },
  {
   "property": "C98",
   "status": "proved",
   "theorems": [
    "SeQuant.Itf.export_loops",
    "SeQuant.Itf.isBatched_iff",
    "SeQuant.Itf.isIndexBatched_iff",
    "SeQuant.Itf.batchIndices_eq",
    "SeQuant.Itf.export_after_abort_fails"
   ],
   "note": "after an exception the generator is not reset by begin_export (export_after_abort_fails)"
  },
  {
   "property": "C99",
   "status": "proved",
   "theorems": [
    "SeQuant.Einsum.Letters.WF.inj",
    "SeQuant.Einsum.getIndex_error_iff",
    "SeQuant.Einsum.subscript_isOk_iff",
    "SeQuant.Einsum.subscript_letters",
    "SeQuant.Einsum.first_byte_fails",
    "SeQuant.Einsum.splitSpec_joinSpec",
    "SeQuant.Einsum.splitSpec_joinSpec_fails",
    "SeQuant.Einsum.einsumAt_value",
    "SeQuant.Einsum.einsumAt_fails",
    "SeQuant.Einsum.toEinsum_value",
    "SeQuant.Einsum.toEinsum_isOk_iff",
    "SeQuant.Einsum.toEinsum_sum",
    "SeQuant.Einsum.commas_fail",
    "SeQuant.Einsum.result_index_fails",
    "SeQuant.Einsum.other_dropped"
   ],
   "note": "einsum and Python are modelled by their documentation; a tensor without indices before another one loses the comma (commas_fail), labels that begin with other bytes get bytes that are no letters (first_byte_fails)"
  }
 ]
}
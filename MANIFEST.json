{
 "claims": [
  {
   "property": "C01",
   "status": "partial",
   "theorems": [
    "Verif.c01_contract_partial",
    "Verif.c01_default_partial",
    "Verif.c01_resolved_partial",
    "Verif.TVal.c01_nested_partial",
    "Verif.TVal.contract_net",
    "Verif.TVal.default_works"
   ],
   "note": "contract() (expand, complete_delta, compile, execute, merge) returns the Einstein sum for any valid scheme and for the default order; c01_nested_partial: contract() of any nesting of tensors, views, sums and networks returns the entries of the object. Missing: closed edges fixed to several values (false, see C06), names clashing with generated names of complete_delta / expand (C17), bare wires inside nested networks (C17), find_order strategies other than default."
  },
  {
   "property": "C02",
   "status": "partial",
   "theorems": [
    "Verif.c02_order_partial"
   ],
   "note": "Any two valid pairwise orders give the same array; same restrictions as C01."
  },
  {
   "property": "C03",
   "status": "partial",
   "theorems": [
    "Verif.c03_slicing_partial",
    "Verif.c03_dangling_violated",
    "Verif.c03_fixed_violated",
    "Verif.c03_unit_open_violated"
   ],
   "note": "Any two valid schemes with any admissible slicing give the same array; violations for slicing an edge on no node, a fixed edge, an open edge of dimension one."
  },
  {
   "property": "C04",
   "status": "partial",
   "theorems": [
    "Verif.c04_enumeration_partial",
    "Verif.c04_multi_fix_violated"
   ],
   "note": "Length, bijection of sub-task numbers with slice assignments, each sub-task computes its slice, merge decodes the same assignment; excluded (and violated): closed edges fixed to several values."
  },
  {
   "property": "C05",
   "status": "partial",
   "theorems": [
    "Verif.c05_batches_partial",
    "Verif.c05_multi_fix_violated"
   ],
   "note": "Any partition into batches in any order adds up to the full execution; excluded (and violated): closed edges fixed to several values."
  },
  {
   "property": "C06",
   "status": "partial",
   "theorems": [
    "Verif.c06_one_value_partial",
    "Verif.c06_empty",
    "Verif.c06_two_values_violated"
   ],
   "note": "Edges fixed to one value or to nothing contract to the restricted sum; two values on a closed edge are violated."
  },
  {
   "property": "C07",
   "status": "partial",
   "theorems": [
    "Verif.c07_update_fix_partial",
    "Verif.c07_fewer_values_violated",
    "Verif.c07_open_fix_violated"
   ],
   "note": "Any sequence of update_fix/execute calls gives the value of the current network when fixed edges hold one value and are closed; violated for a changed number of values and for open fixed edges."
  },
  {
   "property": "C08",
   "status": "partial",
   "theorems": [
    "Verif.c08_set_data_partial",
    "Verif.c08_same_str_violated"
   ],
   "note": "Each node receives the array stored under its name when the sort does not depend on insertion order; violated for names with equal str."
  },
  {
   "property": "C09",
   "status": "partial",
   "theorems": [
    "Verif.c09_last_index",
    "Verif.c09_in_time_partial",
    "Verif.c09_collect_first_violated"
   ],
   "note": "For every interleaving an executed sub-task computes the slice of the last index used; hence correct when run before the next indexing, violated when collected first."
  },
  {
   "property": "C10",
   "status": "proved",
   "theorems": [
    "Verif.c10_commands",
    "Verif.c10_execute",
    "Verif.c10_contract"
   ],
   "note": "For every command list, memory and task over the complex numbers, normalised and plain execution fail together or give the same arrays. Sub-results of unequal shape (numpy broadcasting in sum) are excluded; numexpr's exception on arrays without entries is not modelled."
  },
  {
   "property": "C11",
   "status": "partial",
   "theorems": [
    "Verif.c11_step",
    "Verif.c11_run",
    "Verif.c11_consistent_partial",
    "Verif.c11_auto_name_violated"
   ],
   "note": "consistency for every history in which auto-generated node names do not collide; the collision case is refuted"
  },
  {
   "property": "C12",
   "status": "partial",
   "theorems": [
    "Verif.c12_step_keeps_dims",
    "Verif.c12_history_keeps_dims",
    "Verif.c12_add_node_checks",
    "Verif.c12_update_node_checks_partial",
    "Verif.c12_update_node_violated",
    "Verif.c12_rewire_violated"
   ],
   "note": "no operation changes a known dimension; add_node always rejects mismatches; update_node and rewire do not (witnesses)"
  },
  {
   "property": "C13",
   "status": "partial",
   "theorems": [
    "Verif.c13_fix_edge_atomic",
    "Verif.c13_add_node_atomic_partial",
    "Verif.c13_update_node_atomic_partial",
    "Verif.c13_merge_edges_atomic_partial",
    "Verif.c13_add_node_violated",
    "Verif.c13_update_node_violated",
    "Verif.c13_merge_edges_violated"
   ],
   "note": "fix_edge is atomic; the other three only for the listed failure causes; witnesses for the rest"
  },
  {
   "property": "C14",
   "status": "proved",
   "theorems": [
    "Verif.c14_open_edge",
    "Verif.c14_close_edge",
    "Verif.c14_pop_node",
    "Verif.c14_remove_node",
    "Verif.c14_fix_index"
   ],
   "note": "all five edits, exact resulting shape"
  },
  {
   "property": "C15",
   "status": "partial",
   "theorems": [
    "Verif.c15_is_valid_partial",
    "Verif.c15_is_valid_history_partial",
    "Verif.c15_repeated_leg_violated",
    "Verif.c15_rewire_violated"
   ],
   "note": "exact when the incidence graph lists edges in leg order (histories without rewire/merge/repeated legs); witnesses otherwise"
  },
  {
   "property": "C16",
   "status": "partial",
   "theorems": [
    "Verif.c16_merge_partial",
    "Verif.c16_unused",
    "Verif.c16_repeated_violated"
   ],
   "note": "merge_edges: the value after merging equals the Einstein sum with a copy tensor on the merged edges, for distinct edges of one known dimension where the merged edge is still attached or open; merging unattached closed edges changes nothing; repeated edges fail half way (witness)."
  },
  {
   "property": "C17",
   "status": "partial",
   "theorems": [
    "Verif.TVal.c17_expand_partial",
    "Verif.TVal.c17_total",
    "Verif.c17_view_violated",
    "Verif.c17_loop_violated",
    "Verif.c17_clash_violated",
    "Verif.c17_tuple_violated"
   ],
   "note": "expand succeeds, keeps the shape, leaves no network at a node and represents the same tensor, for every nesting depth and structure; hypotheses: dimensions known, no views at nodes, names that prefixing cannot confuse, no loose edges/bare wires (without the last hypothesis the sum over all edges is preserved: c17_total). Counterexamples for each excluded case."
  },
  {
   "property": "C18",
   "status": "partial",
   "theorems": [
    "Verif.c18_encapsulate_partial",
    "Verif.c18_partial_contract_partial",
    "Verif.c18_encapsulate_values_partial",
    "Verif.c18_fixed_boundary_violated"
   ],
   "note": "Proved for arrays and nested tensors when no edge between the sub-network and the rest (or an open edge) is fixed; with a fixed boundary edge the code sums it freely inside the new node, shown by a counterexample."
  },
  {
   "property": "C19",
   "status": "partial",
   "theorems": [
    "Verif.c19_network",
    "Verif.c19_conflict",
    "Verif.c19_contract_partial",
    "Verif.c19_default_partial",
    "Verif.c19_order",
    "Verif.TVal.c19_objects_partial",
    "Verif.TVal.c19_tensor",
    "Verif.TVal.c19_tensor_shape",
    "Verif.TVal.c19_view_violated",
    "Verif.TVal.c19_sum_inplace_violated"
   ],
   "note": "fix_index of networks, tensors and nested sums: the value is the slice, for any sequence of calls; conflicting fixes give zero; carried through the compiled contraction; order independence. Fails for views and changes the original sum."
  },
  {
   "property": "C20",
   "status": "partial",
   "theorems": [
    "Verif.c20_fix_intersects",
    "Verif.c20_change_fix_partial",
    "Verif.c20_change_fix_violated"
   ],
   "note": "intersection proved for all sequences; change_fix only when at most one value was fixed before; witness otherwise"
  },
  {
   "property": "C21",
   "status": "partial",
   "theorems": [
    "Verif.c21_independent_partial",
    "Verif.c21_reachable",
    "Verif.c21_deepcopy",
    "Verif.c21_rewire_violated",
    "Verif.c21_change_fix_violated"
   ],
   "note": "Interleaved edits of a network and its copy are independent except for rewire and fix_edge(change_fix=True), which write into shared lists (violations proved); deep copies are independent for all edits. Edits of networks held as nodes are not covered."
  },
  {
   "property": "C22",
   "status": "partial",
   "theorems": [
    "Verif.c22_structure_partial",
    "Verif.c22_sliced_partial",
    "Verif.c22_value_violated"
   ],
   "note": "fix(): structure (edges fixed to one value are removed, their legs dropped) proved; the value agrees with the pinned network when the tensors are sliced accordingly; the code does not slice them (witness)."
  },
  {
   "property": "C23",
   "status": "partial",
   "theorems": [
    "Verif.TSum.c23_shape_partial",
    "Verif.TSum.c23_arrays",
    "Verif.TSum.c23_rejected_violated",
    "Verif.TSum.c23_alter_violated"
   ],
   "note": "invariant over all histories of calls, rejected ones included, as long as every rejected add_term meets fully known shapes; two counterexamples otherwise."
  },
  {
   "property": "C24",
   "status": "partial",
   "theorems": [
    "Verif.TVal.c24_add_partial",
    "Verif.TVal.c24_sum",
    "Verif.TVal.c24_neg",
    "Verif.TVal.c24_sub_partial",
    "Verif.TVal.c24_same_object_violated",
    "Verif.TVal.c24_edits",
    "Verif.TVal.c24_contract_partial",
    "Verif.TVal.c24_contract_sub_partial"
   ],
   "note": "entries of the object built by +, unary - and binary -, and after any history of add/update/remove_term; the same object twice fails. The _contract theorems say the same of the arrays contract() returns (networks inside must have harmless names, `Solid`)."
  },
  {
   "property": "C25",
   "status": "partial",
   "theorems": [
    "Verif.TVal.c25_actual",
    "Verif.TVal.c25_scalar_partial",
    "Verif.TVal.c25_vectors_violated",
    "Verif.TVal.c25_dims_violated",
    "Verif.TVal.c25_same_object_violated",
    "Verif.TVal.c25_contract_actual",
    "Verif.TVal.c25_contract_partial",
    "Verif.TVal.c25_name_clash_violated"
   ],
   "note": "the exact law of a*b (leading indices shared), equal to the tensor product if one operand is a scalar, also for the arrays contract() returns; counterexamples otherwise, one of them a clash of edge names that only shows in contract()."
  },
  {
   "property": "C26",
   "status": "partial",
   "theorems": [
    "Verif.TVal.c26_conj",
    "Verif.TVal.c26_involution",
    "Verif.TVal.c26_view",
    "Verif.TVal.c26_contract_partial",
    "Verif.TVal.c26_contract_view"
   ],
   "note": "all nestings; succeeds for whole objects; involution; views. The _contract theorems say the same of the arrays contract() returns (networks inside must have harmless names, `Solid`)."
  },
  {
   "property": "C27",
   "status": "partial",
   "theorems": [
    "Verif.TVal.c27_transpose",
    "Verif.TVal.c27_compose",
    "Verif.TVal.c27_contract_partial"
   ],
   "note": "all permutations, with composition; c27_contract_partial says the same of the arrays contract() returns (networks inside must have harmless names, `Solid`, `Apart`)."
  },
  {
   "property": "C28",
   "status": "partial",
   "theorems": [
    "Verif.TVal.c28_value",
    "Verif.TVal.c28_nonneg",
    "Verif.TVal.c28_contract_partial"
   ],
   "note": "value over any star ring; real, non-negative and definite over the complex numbers; c28_contract_partial says the value of the array contract() returns (networks inside must have harmless names, `Solid`, `Apart`)."
  },
  {
   "property": "C29",
   "status": "partial",
   "theorems": [
    "Verif.c29_roundtrip_partial",
    "Verif.c29_load_accepts_iff",
    "Verif.c29_one_operand_violated"
   ],
   "note": "round trip holds when every step has two operands; the one-operand case is refuted"
  },
  {
   "property": "C30",
   "status": "partial",
   "theorems": [
    "Verif.c30_add_comm",
    "Verif.c30_add_assoc",
    "Verif.c30_add_zero_partial",
    "Verif.c30_identity_violated",
    "Verif.c30_accumulate",
    "Verif.c30_accumulate_perm",
    "Verif.c30_accumulate_append",
    "Verif.c30_order_consistent",
    "Verif.c30_trichotomy_partial",
    "Verif.c30_trichotomy_violated"
   ],
   "note": "identity and trichotomy fail in general; witnesses given"
  },
  {
   "property": "C31",
   "status": "partial",
   "theorems": [
    "Verif.c31_default_partial",
    "Verif.c31_default_small",
    "Verif.c31_hash_name_violated"
   ],
   "note": "Every node set, every sort, every path finder; assumes no node is named '#' or ('#', j) (violated otherwise)."
  },
  {
   "property": "C32",
   "status": "partial",
   "theorems": [
    "Verif.c32_step",
    "Verif.c32_resolve_partial",
    "Verif.c32_opt_einsum_partial",
    "Verif.c32_opt_einsum_violated",
    "Verif.c32_wide_entry_violated"
   ],
   "note": "Every valid order ending in '#' without reused names, every valid path; the opt_einsum finder is violated for node names ('#', j)."
  },
  {
   "property": "C33",
   "status": "partial",
   "theorems": [
    "Verif.c33_flatten_partial",
    "Verif.c33_optimize_partial",
    "Verif.c33_name_reuse_violated"
   ],
   "note": "Every valid order in which no name is reused, every size, offset, rank table, number of rounds; violated when names are reused."
  },
  {
   "property": "C34",
   "status": "partial",
   "theorems": [
    "Verif.c34_reorg_partial",
    "Verif.c34_single_node_violated"
   ],
   "note": "_reorg_order (with the contraction-tree order) for every valid order of at most pairwise steps; _patch_order is C59 and C60. Violated for a single node."
  },
  {
   "property": "C35",
   "status": "proved",
   "theorems": [
    "Verif.Circ.c35_shape_iff",
    "Verif.Circ.c35_shape_value",
    "Verif.Circ.append_invariant"
   ],
   "note": "Validity and reported shape of circuits, for every circuit built by append (append_invariant)."
  },
  {
   "property": "C36",
   "status": "proved",
   "theorems": [
    "Verif.Circ.c36_circuit",
    "Verif.Oper.c36_operation",
    "Verif.Oper.c41_conversion"
   ],
   "note": "c36_circuit: circuits over any type of operations. c36_operation: operations of all classes (gates, controlled gates, circuits, superpositions) nested to any depth are converted to the entries of their matrices. c41_conversion: the same with controlled circuits. The value is that of the network returned by convert_pure, with fixed edges for basis states and measurements."
  },
  {
   "property": "C37",
   "status": "partial",
   "theorems": [
    "Verif.TVal.c37_pure",
    "Verif.Oper.c48_pure",
    "Verif.Oper.c47_superposition_violated"
   ],
   "note": "Proved for gates, controlled gates, controlled circuits (c37_pure: any pure tensor that can be flattened) and, with C48, for circuits of these nested to any depth. Fails for SuperPosition, which has no density conversion. Missing: user-supplied data that is a network with clashing names."
  },
  {
   "property": "C38",
   "status": "partial",
   "theorems": [
    "Verif.Circ.c38_circuit",
    "Verif.Oper.c38_operation",
    "Verif.Oper.c38_involution",
    "Verif.Oper.c38_controlled_violated",
    "Verif.Circ.c38_scalars_violated"
   ],
   "note": "Proved for gates, controlled gates, superpositions and circuits nested to any depth (c38_operation: the adjoint exists, is again such an operation, has the flipped shape and the conjugate transposed tensor; c38_involution). Missing because false: controlled circuits (c38_controlled_violated) and circuits with zero-qubit operations at one time (c38_scalars_violated)."
  },
  {
   "property": "C39",
   "status": "partial",
   "theorems": [
    "Verif.Circ.c39_copy",
    "Verif.Circ.c39_or_partial",
    "Verif.Circ.c39_named_violated"
   ],
   "note": "copy keeps everything; a | b appends b's operations in time order after a's. Missing: operations of a named by hand like a default name (violation proved)."
  },
  {
   "property": "C40",
   "status": "partial",
   "theorems": [
    "Verif.Circ.c40_append_partial",
    "Verif.Circ.c40_append_time_partial",
    "Verif.Circ.c40_append_ok",
    "Verif.Circ.c40_same_time_violated"
   ],
   "note": "append without time never loses an operation; with an explicit time it can (violation proved)."
  },
  {
   "property": "C41",
   "status": "partial",
   "theorems": [
    "Verif.Oper.c41_controlled",
    "Verif.Oper.c41_conversion",
    "Verif.Oper.c41_order_violated",
    "Verif.Oper.c41_empty_violated",
    "Verif.Oper.c41_reset_violated",
    "Verif.Oper.c41_nested_violated"
   ],
   "note": "c41_controlled: Controlled of a gate, a controlled gate, a superposition or a circuit (nested) has the block diagonal tensor, for both values of conditioned_on. Hypotheses that are needed: the circuit has operations, each of them controllable, on common qubits appended in the order of time; the violated theorems show what happens otherwise. contract() is assumed to return the entries of the tensor."
  },
  {
   "property": "C42",
   "status": "proved",
   "theorems": [
    "Verif.Gate.c42_depol",
    "Verif.Gate.c42_default",
    "Verif.Gate.c42_dephase",
    "Verif.Gate.c42_depol_trace",
    "Verif.Gate.c42_ampDamp",
    "Verif.Gate.c42_ampDamp_trace",
    "Verif.Gate.c42_kraus"
   ],
   "note": "Entries of the channel arrays over the reals. Kraus form for all parameters (amplitude damping: 0 <= p <= 1, where the square roots exist), trace preservation for all parameters."
  },
  {
   "property": "C43",
   "status": "proved",
   "theorems": [
    "Verif.Gate.c43_x",
    "Verif.Gate.c43_z",
    "Verif.Gate.c43_xx",
    "Verif.Gate.c43_zz"
   ],
   "note": "Group law, adjoint, unitarity, cos/sin form and matrix exponential for X, Z, XX and ZZ rotations."
  },
  {
   "property": "C44",
   "status": "partial",
   "theorems": [
    "Verif.c44_complete_delta_partial",
    "Verif.c44_complete_delta_succeeds",
    "Verif.c44_idempotent",
    "Verif.c44_edge_clash_violated",
    "Verif.c44_star_node_violated"
   ],
   "note": "value, shape and canonical form proved when edge names (e,k) are unused, and success proved when also the node names ('*',e,k) are unused; completing twice changes nothing; witnesses for the name clash and for a node called '*'"
  },
  {
   "property": "C45",
   "status": "proved",
   "theorems": [
    "Verif.c45_order_to_path",
    "Verif.c45_roundtrip"
   ],
   "note": "Both directions, all sizes."
  },
  {
   "property": "C46",
   "status": "partial",
   "theorems": [
    "Verif.Gate.c46_self_adjoint",
    "Verif.Gate.c46_unitary",
    "Verif.Gate.c46_identities_partial",
    "Verif.Gate.c46_y_violated"
   ],
   "note": "All gates unitary, flagged gates self-adjoint, identities proved. The identities with Y fail because YGate is minus the textbook Y (violation proved)."
  },
  {
   "property": "C47",
   "status": "proved",
   "theorems": [
    "Verif.Circ.c47_circuit",
    "Verif.Oper.c47_operation"
   ],
   "note": "Circuits over any set of operations with density representations, and all classes of operations nested to any depth, including noise. Glue (connected components, sorting) and contract() inside Controlled are parameters with stated soundness."
  },
  {
   "property": "C48",
   "status": "proved",
   "theorems": [
    "Verif.Oper.c48_pure"
   ],
   "note": "All classes but SuperPosition (see C37), nested to any depth."
  },
  {
   "property": "C49",
   "status": "partial",
   "theorems": [
    "Verif.TVal.c49_nested",
    "Verif.Oper.c49_operation_partial"
   ],
   "note": "End to end: conversion then contraction, for gates, controlled operations, circuits, controlled circuits and superpositions. Excludes operations called '*' or '#'; gate data given by networks need harmless names; the order finder must accept completable networks (proved for the default one)."
  },
  {
   "property": "C50",
   "status": "partial",
   "theorems": [
    "Verif.Oper.c50_immutable",
    "Verif.Oper.c50_pure",
    "Verif.Oper.c50_controlled",
    "Verif.Oper.c50_unitary",
    "Verif.Oper.c50_pure_state",
    "Verif.Oper.c50_pure_meas",
    "Verif.Oper.c50_state",
    "Verif.Oper.c50_measurement",
    "Verif.Oper.c50_channel",
    "Verif.Oper.c50_diagonal",
    "Verif.Oper.c50_kraus_partial",
    "Verif.Oper.c50_apply_partial",
    "Verif.Oper.c50_kraus_errors",
    "Verif.Oper.c50_complex_violated"
   ],
   "note": "Arrays: all constructors, all sizes, both directions of the size check. Kraus operators: full for arrays of real dtype; the code refuses complex ones (c50_complex_violated), so the full statement is false."
  },
  {
   "property": "C51",
   "status": "proved",
   "theorems": [
    "Verif.Oper.c51_matrix",
    "Verif.Oper.c51_density",
    "Verif.Oper.c51_tensor_pure",
    "Verif.Oper.c51_tensor_density",
    "Verif.Oper.built_succ",
    "Verif.Oper.dens_succ"
   ],
   "note": "Both conversions; circuits nested to any depth. Hypotheses: the circuits at every depth are valid and their operations fit (AllValid), implied by Built/DensBuilt. Lemmas/Levels: the depth bound of the model is immaterial."
  },
  {
   "property": "C52",
   "status": "partial",
   "theorems": [
    "Verif.Oper.c52_add_noise_partial",
    "Verif.Oper.c52_tensor_density_partial",
    "Verif.Oper.c52_names_violated"
   ],
   "note": "Full claim for circuits whose nested circuits name their qubits 0, 1, ...; for other names add_noise raises ValueError (c52_names_violated)."
  },
  {
   "property": "C53",
   "status": "partial",
   "theorems": [
    "Verif.Oper.c53_prob_partial",
    "Verif.Oper.c53_post",
    "Verif.Oper.c53_collapse_partial",
    "Verif.Oper.c53_collapse_inputs",
    "Verif.Oper.c53_measure_partial",
    "Verif.Oper.c53_normalised_partial",
    "Verif.Oper.c53_again_violated"
   ],
   "note": "prob_1, the conditional state, collapse and normalisation for circuits whose qubits are named by their positions; for other names the claim is false (c53_again_violated). The random draw, real part and inverse square root are parameters."
  },
  {
   "property": "C54",
   "status": "partial",
   "theorems": [
    "Verif.Oper.c54_isometric",
    "Verif.Oper.c54_keeps",
    "Verif.Oper.c54_trace",
    "Verif.Oper.c54_probs",
    "Verif.Oper.c54_append",
    "Verif.Oper.c54_session_partial",
    "Verif.Oper.c54_unitary",
    "Verif.Oper.c54_pure_state",
    "Verif.Oper.c54_state",
    "Verif.Oper.c54_kraus_partial"
   ],
   "note": "Trace preservation proved for all nested circuits of normalised data. Measurements in a session need qubits named 0..N-1 (C53), Kraus operators real dtype (C50)."
  },
  {
   "property": "C55",
   "status": "partial",
   "theorems": [
    "Verif.Oper.c55_or_partial",
    "Verif.Oper.c55_or_pure_partial",
    "Verif.Oper.c55_or_invalid",
    "Verif.Oper.c55_product_partial",
    "Verif.Oper.c55_product_density_partial",
    "Verif.Oper.c55_tensor",
    "Verif.Oper.c55_tensor_density",
    "Verif.Oper.c55_scalars_violated"
   ],
   "note": "Full for operands with at least one qubit; the left circuit must not have operations named by hand (t, qubits) (C39), two scalars lose the left one (violated)."
  },
  {
   "property": "C56",
   "status": "partial",
   "theorems": [
    "Verif.c56_order_partial",
    "Verif.c56_found_partial",
    "Verif.c56_simplify",
    "Verif.c56_simplify_value",
    "Verif.c56_simplify_method",
    "Verif.c56_contract_partial",
    "Verif.c56_single_violated",
    "Verif.c56_scalar_violated",
    "Verif.c56_shared_violated"
   ],
   "note": "Every order found is valid, single-assignment, cheapest, and pairwise unless the simplified network has a single node; simplification keeps the value and is maximal; contraction along the order gives the Einstein sum. Missing: networks that simplify to one node, where the code fails (c56_single_violated, c56_scalar_violated)."
  },
  {
   "property": "C57",
   "status": "proved",
   "theorems": [
    "Verif.c57_init",
    "Verif.c57_init_one",
    "Verif.c57_tree",
    "Verif.c57_edges",
    "Verif.c57_path",
    "Verif.c57_branches",
    "Verif.c57_unmerge",
    "Verif.c57_switch_twice",
    "Verif.c57_merge_unmerge",
    "Verif.c57_step_root",
    "Verif.c57_switch_edges"
   ],
   "note": "Vertices and subscripts are numbers (the code's subscripts are characters). The given sub-branch of unmerge_branches must not be the vertex of the stem itself. A method that raises is modelled by none; the partly changed object it leaves behind is not."
  },
  {
   "property": "C58",
   "status": "partial",
   "theorems": [
    "Verif.c58_ranges",
    "Verif.c58_edge_partial",
    "Verif.c58_rounds",
    "Verif.c58_slice_partial",
    "Verif.c58_raises",
    "Verif.c58_contract_partial",
    "Verif.c58_first",
    "Verif.c58_longest",
    "Verif.c58_cheapest_partial",
    "Verif.c58_stops",
    "Verif.c58_gives_up",
    "Verif.c58_count",
    "Verif.c58_unlimited_violated",
    "Verif.c58_two_nodes_violated",
    "Verif.c58_twice_violated",
    "Verif.c58_mutated_violated",
    "Verif.c58_cost_violated"
   ],
   "note": "All oracles: the order is valid, within the width limit, pairwise unless the last optimisation made it too wide; sliced edges are unfixed edges of tensors; contraction with the scheme gives the Einstein sum; ranges, choices (first scheme, ten longest ranges, cheapest edge), the end of the search, the reported number of slices and the only exception characterised. Missing/violated: distinct edges, max_num_slice (-1 never slices; may be exceeded by nine), cost compared after the first accepted edge."
  },
  {
   "property": "C59",
   "status": "partial",
   "theorems": [
    "Verif.c59_patch_partial",
    "Verif.c59_task_partial",
    "Verif.c59_fixed_violated",
    "Verif.c59_sliced_violated",
    "Verif.c59_single_violated",
    "Verif.c59_reuse_violated"
   ],
   "note": "Proved: with do_patch=True the result is the Einstein sum and the same array as without, for every threshold, every listing of the boundary sets and every sound order search; the compiled task is one of the network. Partial: orders must end in '#' and give no name twice; if an edge is fixed or sliced all dimensions must be equal (the code fails otherwise, see the violated theorems); the search in ContractionTree.patch is an argument here (modelled in C60)."
  },
  {
   "property": "C60",
   "status": "partial",
   "theorems": [
    "Verif.c60_patch_partial",
    "Verif.c60_fails",
    "Verif.c60_small",
    "Verif.c60_compile_partial",
    "Verif.c60_index_violated",
    "Verif.c60_branch_violated",
    "Verif.c60_stem_violated"
   ],
   "note": "valid orders when the stem is a line (StemLinear); the code returns invalid orders or raises otherwise, see the violated theorems; c60_fails lists all failures"
  },
  {
   "property": "C61",
   "status": "proved",
   "theorems": [
    "Verif.c61_cone",
    "Verif.c61_data",
    "Verif.c61_clause",
    "Verif.c61_query",
    "Verif.c61_prob",
    "Verif.c61_between",
    "Verif.c61_optimum",
    "Verif.c61_subset_violated",
    "Verif.c61_vars_violated"
   ],
   "note": "Light cone networks of the QAOA demo: built without error for all instances, layers >= 1 and set orders; their value is the mean of the clause in the full QAOA state; query is the mean energy and never below optimum. Execution of the compiled task is taken as the value of the network (C08). Violations: preprocess with a subset of clauses leaves nodes without data; optimum needs variables 0..n-1."
  },
  {
   "property": "C62",
   "status": "partial",
   "theorems": [
    "Verif.c62_contract_partial",
    "Verif.c62_agree_partial",
    "Verif.c62_pairs",
    "Verif.c62_plain",
    "Verif.c62_none",
    "Verif.c62_cheapest",
    "Verif.c62_mp_some",
    "Verif.c62_endless_violated"
   ],
   "note": "contract with every finder and slicer gives the Einstein sum, any two finders the same array. Missing: orders of the khp finder that are not pairwise (C56), slicing a network with fewer than two nodes, slicing only open edges of dimension one; nesting of sliced finders and order files are not modelled. Violation: MPSlicer never returns when nothing can be sliced."
  },
  {
   "property": "C63",
   "status": "proved",
   "theorems": [
    "Verif.Circ.c63_append",
    "Verif.Circ.c63_append_fails",
    "Verif.Circ.c63_valid",
    "Verif.Oper.c63_tensor",
    "Verif.Oper.c63_density"
   ],
   "note": "Appending without time steps and names, to an empty circuit, for every list of operations (Built for tensor_pure, DensBuilt for tensor_density)."
  },
  {
   "property": "C64",
   "status": "proved",
   "theorems": [
    "Verif.Oper.c64_ghz",
    "Verif.Oper.c64_entries",
    "Verif.Oper.c64_self",
    "Verif.Oper.c64_noise",
    "Verif.Oper.c64_fidelity_partial"
   ],
   "note": "examples/GHZ.py for every n >= 1, over the complex numbers; np.sqrt(0.5) is the real number. c64_noise is the whole script, for any one-qubit channel; c64_fidelity_partial compares with any state whose operations have no hand-made names (t, qubits)."
  },
  {
   "property": "C65",
   "status": "partial",
   "theorems": [
    "Verif.Oper.c65_overlap_partial"
   ],
   "note": "Partial: operations of b must not have hand-made names of the form (t, qubits) (C39); the data of gates of the adjoint that are networks need harmless names (hypothesis DensBuilt of the adjoint)."
  },
  {
   "property": "C66",
   "status": "partial",
   "theorems": [
    "Verif.Qec.c66_trace",
    "Verif.Qec.c66_kraus",
    "Verif.Qec.c66_cp_iff",
    "Verif.Qec.c66_cp",
    "Verif.Qec.c66_semigroup",
    "Verif.Qec.c66_windows",
    "Verif.Qec.c66_zero",
    "Verif.Qec.c66_lamda",
    "Verif.Qec.c66_photons_violated",
    "Verif.Qec.c66_hNoise",
    "Verif.Qec.c66_hNoise_cp",
    "Verif.Qec.c66_nd",
    "Verif.Qec.c66_nd_trace",
    "Verif.Qec.c66_cz",
    "Verif.Qec.c66_cz_phase"
   ],
   "note": "Floats are real numbers. Complete positivity with photon noise (ts) holds exactly if p_phi_ <= 1, which fails for some windows (c66_photons_violated)."
  },
  {
   "property": "C67",
   "status": "partial",
   "theorems": [
    "Verif.Qec.c67_break",
    "Verif.Qec.c67_parallel",
    "Verif.Qec.c67_x_pairs",
    "Verif.Qec.c67_z_pairs",
    "Verif.Oper.c67_z",
    "Verif.Oper.c67_x",
    "Verif.Oper.c67_z_tensor",
    "Verif.Oper.c67_x_tensor"
   ],
   "note": "Coordinates are numbered by an injective function; use_ndcompmeas=True is covered for the coordinates of the demo, as part of final_measurement (C77)."
  },
  {
   "property": "C68",
   "status": "proved",
   "theorems": [
    "Verif.Oper.c68_state",
    "Verif.Oper.c68_x",
    "Verif.Oper.c68_z",
    "Verif.Oper.c68_logical",
    "Verif.Oper.c68_orthogonal",
    "Verif.Oper.c68_nonzero",
    "Verif.Oper.c68_correct_x",
    "Verif.Oper.c68_correct_z",
    "Verif.Qec.c68_distance",
    "Verif.Qec.c68_distance_sharp",
    "Verif.Oper.c77_density"
   ],
   "note": "initial_state is proved as a circuit. The corrections are one branch of the ancillas at a time; the circuit of final_measurement, with Trace, TraceState and PlaceHolder, is the sum over these branches (c77_density)."
  },
  {
   "property": "C69",
   "status": "partial",
   "theorems": [
    "Verif.Qec.c69_ok",
    "Verif.Qec.c69_gaps",
    "Verif.Qec.c69_used",
    "Verif.Qec.c69_fresh",
    "Verif.Qec.c69_total",
    "Verif.Qec.c69_stretch",
    "Verif.Qec.c69_windows_partial",
    "Verif.Qec.c69_windows_violated",
    "Verif.Qec.c69_end_violated"
   ],
   "note": "The windows are as claimed if each ND comes after an even number of noisy Hadamard gates on its wire (c69_windows_partial), as in the demo; in general they are not."
  },
  {
   "property": "C70",
   "status": "partial",
   "theorems": [
    "Verif.Qec.c70_ok",
    "Verif.Qec.c70_ideal",
    "Verif.Qec.c70_cross",
    "Verif.Qec.c70_within",
    "Verif.Qec.c70_order",
    "Verif.Qec.c70_rounds",
    "Verif.Qec.c70_windows",
    "Verif.Qec.c70_clash_violated",
    "Verif.Qec.c70_shape_violated",
    "Verif.Qec.c70_none_violated",
    "Verif.Qec.c70_names"
   ],
   "note": "the circuit of a round has no shape: the cross talk gates use qubits twice at one time (c70_shape_violated); params=None raises (c70_none_violated)"
  },
  {
   "property": "C71",
   "status": "partial",
   "theorems": [
    "Verif.Qec.c71_name",
    "Verif.Qec.c71_or",
    "Verif.Qec.c71_open",
    "Verif.Qec.c71_outcomes",
    "Verif.Qec.c71_readout",
    "Verif.Qec.c71_syndrome_violated"
   ],
   "note": "the opening of the outcomes is proved; that the syndrome is put in is false (c71_syndrome_violated)"
  },
  {
   "property": "C72",
   "status": "partial",
   "theorems": [
    "Verif.PTree.c72_exact",
    "Verif.PTree.c72_value",
    "Verif.PTree.c72_order",
    "Verif.PTree.c72_memory",
    "Verif.PTree.c72_cost",
    "Verif.PTree.c72_stable",
    "Verif.PTree.c72_when",
    "Verif.PTree.c72_flops_violated",
    "Verif.c72_from_order",
    "Verif.c72_contract",
    "Verif.PTree.flipBranch_fuel"
   ],
   "note": "Full except for the total cost, which a flip can increase (c72_flops_violated). Trees with two children per inner node; set order and string comparison arbitrary."
  },
  {
   "property": "C73",
   "status": "partial",
   "theorems": [
    "Verif.Oper.c73_state",
    "Verif.Oper.c73_gates",
    "Verif.QGate.unitary_one",
    "Verif.QGate.unitary_two",
    "Verif.QGate.quarter_square",
    "Verif.QGate.pauli_square",
    "Verif.Oper.c73_blank_violated",
    "Verif.Oper.c73_ignored_violated",
    "Verif.Oper.c73_name_violated",
    "Verif.Oper.c73_missing_violated",
    "Verif.Oper.c73_repeated_violated",
    "Verif.Oper.c73_iswap_cz_violated",
    "Verif.Oper.c73_simplify_violated"
   ],
   "note": "For all files of well-formed lines. Missing: other lines, which are dropped, read as other gates or overwritten (violations proved)."
  },
  {
   "property": "C74",
   "status": "proved",
   "theorems": [
    "Verif.Qec.c74_table",
    "Verif.Qec.c74_ptm",
    "Verif.Qec.c74_real",
    "Verif.Qec.c74_readout",
    "Verif.Qec.c74_flip",
    "Verif.Qec.c74_stochastic",
    "Verif.Qec.c74_sk",
    "Verif.Qec.c74_correction",
    "Verif.Qec.c74_decode",
    "Verif.Qec.c74_best",
    "Verif.Qec.c74_pauliMap",
    "Verif.Qec.c74_likely",
    "Verif.Qec.c74_first",
    "Verif.Qec.c74_perfect"
   ],
   "note": "Arrays are functions of their indices, floats are real numbers; the contraction that gives the tensor is the subject of C08-C31, the roles of its first four legs are read off."
  },
  {
   "property": "C75",
   "status": "proved",
   "theorems": [
    "Verif.c75_subscripts",
    "Verif.c75_values",
    "Verif.c75_hash_violated",
    "Verif.subscripts_eval"
   ],
   "note": "Networks without fixed edges (subscripts drops the letters of fixed edges), dimensions known."
  },
  {
   "property": "C76",
   "status": "partial",
   "theorems": [
    "Verif.TVal.c76_eq",
    "Verif.TVal.c76_same",
    "Verif.TVal.c76_shape",
    "Verif.TVal.c76_normalize",
    "Verif.TVal.c76_symm_violated",
    "Verif.TVal.c76_trans_violated",
    "Verif.TVal.c76_states_violated",
    "Verif.TVal.c76_zero_violated"
   ],
   "note": "Full for objects without clashing names (Solid, Apart) over exact complex numbers; the violated theorems show that == is no equivalence and that normalize fails for zero."
  },
  {
   "property": "C77",
   "status": "proved",
   "theorems": [
    "Verif.Oper.c77_density",
    "Verif.Oper.c77_select_z",
    "Verif.Oper.c77_select_x",
    "Verif.Oper.c77_code"
   ],
   "note": "final_measurement is applied to an empty circuit; coordinates are numbered by an injective function."
  },
  {
   "property": "C78",
   "status": "partial",
   "theorems": [
    "Verif.TVal.c78_is_ready_partial",
    "Verif.TVal.c78_contract_partial",
    "Verif.TVal.c78_repeated_leg_violated",
    "Verif.TVal.c78_wire_violated",
    "Verif.TVal.c78_empty_sum_violated"
   ],
   "note": "Full decision theorem for objects whose networks are made without repeated legs, rewire or merge_edges, and contraction of ready objects without bare wires and empty sums; the full claims are false of the code, with witnesses."
  },
  {
   "property": "C79",
   "status": "partial",
   "theorems": [
    "Verif.PTree.c79_lines",
    "Verif.PTree.c79_numbers",
    "Verif.PTree.c79_product_partial",
    "Verif.PTree.c79_cost",
    "Verif.PTree.c79_from_order_partial",
    "Verif.PTree.c79_dangling_violated"
   ],
   "note": "Full except that the indices printed for the result are its indices only if no index occurs in one tensor alone without being open; the full claim is false of the code (c79_dangling_violated)."
  },
  {
   "property": "C80",
   "status": "partial",
   "theorems": [
    "Verif.c80_found",
    "Verif.c80_first",
    "Verif.c80_second",
    "Verif.c80_cheap",
    "Verif.c80_scheme",
    "Verif.c80_limit_violated"
   ],
   "note": "Full except at exactly optimal or dp operands, where the documented limits are not met (c80_limit_violated). opt_einsum is a parameter."
  }
 ]
}
# Formal model of alibaba/acqdp — design

Everything is in Lean 4 under `lean/Verif/`. The Python source in `/repo` is only read.

## Layers

| Module group | Contents |
|---|---|
| `Verif/Base/*` | Python names and dictionaries (association lists in insertion order), iterated finite sums over assignments. No acqdp code. |
| `Verif/Spec/*` | Small independent specifications: the Einstein sum of a network, "valid pairwise order", circuit wire language, ... Written without reference to the model's helper functions. |
| `Verif/Model/*` | Shallow models of the Python functions, branch by branch, exceptions as values. Every definition cites file and lines. |
| `Verif/Lemmas/*` | Helper lemmas. |
| `Verif/Props/*` | The property theorems, each with an `example` showing that its hypotheses are met by a concrete non-trivial case, and counterexample theorems (`..._violated`) where the code does not have the property. |

## Conventions

* Array entries live in an arbitrary commutative semiring (`ℂ`/`ℝ` where conjugation, `exp`, `sqrt`, `cos` occur). Floating point rounding, dtypes and overflow are not modelled.
* An array is a shape (`List Nat`) with an entry function on index lists. `numpy.einsum`, `moveaxis`, `transpose`, `eye`, `conj`, `outer`, `stack` are modelled by their documented meaning.
* Names (node and edge names) are Python hashables: integers, strings, tuples.
* Exceptions are values (`Except`), and state left behind by an exception is modelled where the property speaks about it.
* External heuristics (opt_einsum paths, KaHyPar partitions, random numbers, sort tie-breaking) are parameters ranging over everything they could return.

## Plan per property

| Id | Modelled how | Proof |
|---|---|---|
| C01 | `expand`, `complete_delta`, `_generate_template` (no patch), `_execute`, `_merge` as functions on networks / command lists; `contract` of tensors, views, sums, nested networks by recursion (Model/ContractFull); spec `einsum value` = sum over all assignments of attached or open edges with an indicator on the open edges | value preservation of every stage, composed |
| C02 | step function contracting a pair of factors, run along an order | induction over the order; Fubini on iterated sums |
| C03 | sliced edges as fix commands and cells, `_merge` | mixed-radix bijection + splitting of the sum |
| C04 | `__getitem__` decode, `_merge` decode | induction over the list of radices |
| C05 | `execute(lst)` for arbitrary `lst` | sums over list append/permutation |
| C06 | `fix_edge`, `_generate_template_edge_fix`, `__getitem__` pre-computation | expected: proof for one value / empty set, counterexample for two values |
| C07 | `update_fix` on cells | history induction; expected partial (number of values must not change) |
| C08 | `_load_data` with an arbitrary sort | proof when both sorts agree; counterexample otherwise |
| C09 | cells shared between sub-tasks | counterexample + proof for immediate execution |
| C10 | `_execute` with (log-norm, array) pairs over ℝ/ℂ | invariant: exp(s)·a is the plain value |
| C11 | state machine of network edits including the incidence list | invariant by induction over op list |
| C12 | same state machine | monotonicity by induction |
| C13 | same, with the state left behind by exceptions | counterexample for add_node/update_node; proof for the atomic ones |
| C14 | same | direct |
| C15 | `is_valid` over incidence list | counterexample (repeated legs) + partial |
| C16 | `merge_edges` | reindexing of sums |
| C17 | `expand` with `comb_name`, `add_attribute_to_names`, graph union, `merge_edges` over the connected components (an oracle assumed sound, `Glue.Sound`); recursion bounded by the nesting depth | loop invariant `Run`; inserting a network = sum with guards, one component merged at a time; induction over the depth; counterexamples for views, bare loops and name clashes |
| C18 | `subtn`/`encapsulate` | Fubini; counterexample with a fixed boundary edge |
| C19 | `fix_index` of network, tensor, sum | indicator manipulation |
| C20 | `fix_edge` | fold over calls; counterexample for change_fix |
| C21 | objects in a store of list objects; a call changes the object as the method model does and says which lists are assigned anew and which are written in place; `copy` shares lists, `deepcopy` does not (tensors at nodes are values, so edits of networks inside nodes are not covered) | frame theorem per call (`TN.step_kept`), store invariant, induction over interleavings; counterexamples for `rewire` and `change_fix` |
| C22 | `fix` | counterexample; structural partial |
| C23 | state machine with in-place mutated cache | counterexample with rejected add; invariant otherwise |
| C24–C28 | inductive type of tensor-valued objects with contract semantics | structural induction; counterexamples for `t+t`, `a*b`, bare-wire norm. The `_contract` theorems (Props/Operators) state the laws for the arrays `contract` returns, by showing that every operator keeps the invariant `Solid` under which contraction is exact; they need names that do not clash (`Apart`, shown necessary by `c25_name_clash_violated`). `c24_edits`: what each editing call does to the entries of a sum, after any history |
| C29 | JSON value type, dump, load | structural recursion; counterexample for one-operand steps |
| C30 | cost structure | arithmetic; counterexample for trichotomy |
| C31–C34 | orders as lists of steps over names; spec `ValidOrder` by multiset consumption | induction |
| C45 | `order_to_path`, `path_to_paired_order` | induction over the path |
| C35 | per-qubit strings, the regular expression as an automaton | induction over strings / operation lists |
| C36 | converter loop (backwards in time) over an arbitrary type of operations, producing a network; spec: operations act on functions of the qubit values (`Spec/Evolve`) | the network built so far is the kernel of the operations visited so far (loop invariant `Computes`); operations at one time commute |
| C38 (circuits) | `Circuit.adjoint` as the loop over the dictionary with an arbitrary operation-level adjoint; spec `ConjTransposed` | evolving with the transposed operations in reverse order is the transposed evolution (`Lemmas/Duality`), conjugation commutes with the sums, converter theorem of C36 on both circuits |
| C36, C38 (operations) | the classes of operations as one inductive type `Oper` (Model/Operation), their shapes, purity, conversion and adjoint by recursion on the nesting depth; spec `Oper.mat` (Spec/Operation): the matrix of a gate, block diagonal for controls, product in time order for circuits, linear combination for superpositions | induction on the depth; predicate `Means` (shape, tensor, dimensions, entries) for every class |
| C41 | `Controlled`, the controlled circuit and its conversion (`cctrlLoop`); `contract()` is a parameter assumed to return the entries (`Evaluates`) | controlled gates by index bookkeeping on the stacked array; controlled circuits by evolving the joint state of control and qubits (`Joint.evolve`) |
| C37 | `convert_density` of a pure operation, with the expansion of the conjugate (`TVal.densityPure`) | two nodes on consecutive edges; `expand` keeps the value, as the tensors of gates, controlled gates and controlled circuits can be flattened (`Oper.flat_tensor`) |
| C39, C40 | circuit as name-keyed dictionary | dictionary lemmas; counterexample for C40 |
| C42, C43 | the arrays of the rotation gates and noise channels over ℝ and ℂ (exact, no rounding) | algebra; `cos + i sin P` for an involution `P`; power series for the exponential |
| C46 | the arrays of the named gates over ℂ | entrywise; counterexample for Y |
| C47 | `convert_density` of circuits and of all classes of operations | the loop forward in time is that of `convert_pure` on the transposed circuit over twice as many wires (`Circ.evolveDens_dual`), then induction over the nesting depth |
| C48 | both conversions | induction over the nesting depth: evolution of a product `T ⊗ star T` is a product |
| C49 | conversion, `expand`, `complete_delta`, order finder, compiler, contractor composed | the conversion makes networks whose edges are attached, fixed or open and whose names do not clash (`Solid`), an invariant of the conversion loops; such networks satisfy the hypotheses of the contraction theorem stated for sums over all edges (`c49_nested`), including fixed loose edges. Superpositions become sums, which stay leaves of the flattened network and are contracted first. Partial: names `'*'`, `'#'` excluded; gate data given by networks need harmless names (`Plain`); the order finder is a parameter (`Reliable`), met by the default one |
| C50 | constructors with numpy arrays, `operation_from_kraus` (Model/Kraus) | `numpy.reshape` as equality of positions in memory (`offset`, `unoffset`); Spec/Kraus: `binary`, `krausMap`. Reshaping to one axis per qubit is reading the index as a binary number (`reshape_bits`); the loop adds `K ⊗ K*` (`krausLoop_ok`, induction on the list). Partial: Kraus operators must have real dtype, complex ones raise (`c50_complex_violated`) |
| C51 | both conversions on nested circuits | `Oper.leaves` (Spec/Leaves) takes circuits apart to all depths, renaming the inner qubits by position; an act whose entries are those of a sequence of acts acts as the sequence (`apply_sequence`, by linearity and expansion in basis states), inner qubits that the outer state does not see are summed once (`Steady`); density matrices by doubling the wires. Induction over the depth. Lemmas/Levels shows that the depth bound of the model plays no role: `Built`/`DensBuilt` at depth n hold at n+1 with the same shape and entries |
| C52 | `add_noise`, `Circuit() \| op` (Model/Measure) | Spec/Noise: `noisySeq` puts the channel on each output behind each act. `Circuit() \| op` holds operations that act as `op` (`Oper.Runs`: the operation itself, or the operations of a nested circuit in the order of time, by C51); with the channels appended it is a valid circuit with the same first and last ends on every wire (`Like`), so the outer circuit stays valid; `unfold_chain` takes the noisy operations apart. Partial: nested circuits must name their qubits 0, 1, …, otherwise the append raises (`c52_names_violated`) |
| C53 | `measure`, `collapse`, `Trace`, `CompMeas`, `CompState` (Model/Measure) | Spec/Measure: probability, projection and conditioning of a density matrix as functions of two assignments. Appending operations at the end of a circuit composes their acts (`Circ.Extends`, Lemmas/Later; `Prepares.extend`); traces sum the diagonal, measurements pin a value, so `prob_1` is the sum over the diagonal (`c53_prob_partial`), `c53_post` gives the circuit built for an outcome, `c53_collapse_partial` uses that contraction of `tensor_pure`/`tensor_density` gives the entries (C47-C49). The random draw, `real` and `1/sqrt` are parameters. Partial: the qubits must be named by their positions 0..N-1, otherwise the code confuses positions and names (`c53_again_violated`) |
| C54 | the representations of C47, C48 and `measure` | Spec/Trace: `KeepsTrace`, `Isometric`, `Complete` (sums over bit strings only). Leaf data are assumed normalised (`Normal`, recursive over nesting); one act keeps the trace (`trace_applyDens`), then induction over the acts in time order (`trace_evolveDens`, `Circ.keepsTrace`, `Circ.isometric`) and over nesting (`c54_isometric`, `c54_keeps`); controls via `isometric_control`, `isometric_block`. `c54_append` needs nothing about the circuit before. `Session` is the set of circuits reached by appends and measurements, the trace is one by induction (`c54_session_partial`). Constructors with arrays give normalised data (`c54_unitary`, `c54_pure_state`, `c54_state`, `c54_kraus_partial`). Partial: measurements as in C53 (qubits named 0..N-1), Kraus operators of real dtype as in C50; a `SuperPosition` counts as normalised only if its sum is |
| C55 | `Operation.__or__`, `__mul__` (`orOper`, `mulOper` in Model/Measure) | Stated with Spec/Evolve, Spec/Density (`Act.apply`, `Act.applyDens`) and sums over bit strings. What an operand adds to a circuit and that this acts as the operand is C51 (`Kind.operand`, for pure operations and density matrices at once); the result lists both one after the other (`Kind.or_joined`), and two acts compose if nothing is created twice (`two_steps`, `fresh_free`). Products: `applyDens_basis`; tensor products: acts on different qubits factorise (`two_apart`). Partial: a left operand with an operation named by hand `(t, qubits)` may lose it (C39); two operands without qubits lose the left one (`c55_scalars_violated`) |
| C56 | `KHPOrderFinder`, `tanner_graph`, `simplify` (Model/Khp: `khpSimplify`, `TN.simplify`, `TN.tanner`, `Tanner.sub`, `khpParts`, `khpOrder`, `khpQuery`, `khpFind`) | Stated with Spec/Order (`ValidOrder`, `SingleAssignment`, `Pairwise2`) and `TN.value`. The partitioner, the path finder and the cost are arbitrary functions; the CMA search only picks parameters of the partitioner and is left out. `c56_order_partial`: every order found is valid, without repeated names, pairwise if the simplified network has two nodes or more, and the cheapest of the queries (`khpOrder_spec`: induction over the recursion on parts with the invariant `KhpRun`, that the steps run whatever other tensors are around; the resolver's new names are above all names used before). `c56_found_partial`: an order is found if the last simplified node has a leg. `c56_simplify`, `c56_simplify_value`, `c56_simplify_method`: the merges are valid, keep the value, succeed, and leave no pair of neighbours with a small product. `c56_contract_partial`: contracting along the order gives the Einstein sum (through C01). Partial: a network that simplifies to one node gets an order with a one-operand step (`c56_single_violated`) or none (`c56_scalar_violated`). |
| C57 | `UndirectedContractionTree` (Model/Uct: `Uct.make`, `preprocess`, `computeNodeCost`, `detectStem`, `getPath`, `switchEdges`, `stepRoot`, `switchBranches`, `mergeBranches`, `unmergeBranches`) | Spec/PathCost: `pathCost` of a path of positions on sets of indices (no tree), `IsGraphPath`, `listWeight`. Invariant `Uct.Inv`: the graph can be cut into two trees at every edge (`Cut`), edges store what is beyond, parents lead to the root, vertex costs and total are right; kept by `switch_edges` (`Inv.switch`) and `step_root` (`Inv.step`), established by the constructor (`make_spec`). `Reach` is the set of trees made by the constructor and the methods; `c57_path`: the incrementally updated cost is the cost of the path given by `get_path`, and that path is valid; `c57_init`: also of the path given to the constructor, and the stem is a heaviest path; `c57_tree`: exactly one path between any two vertices; `c57_edges`; `c57_branches`, `c57_unmerge`, `c57_step_root`: when the methods succeed; `c57_switch_twice`, `c57_merge_unmerge`: undoing; `c57_switch_edges`: also off the stem. |
| C58 | `Slicer._slice`, `_biggest_weight_edge` (Model/Slicer: `sliceScheme`, `sliceLoop`, `biggestEdge`, `Pick.round`, `Uct.without` with the branch moves at both ends of a range, `Uct.spans`) | All oracles (paths, costs, random rounds, order of sets) are arguments; the loop has fuel that is proved irrelevant (`c58_rounds`). `Shadow`: the trees the slicer works on have stale subscript tables but the same skeleton as a reachable tree of C57, so the moves succeed and the paths are valid. `SliceInv`: what is left of the network after fixing the slices. `c58_ranges`: ranges stated by paths in the tree and the subscripts of operands only; `c58_edge_partial`: when `_biggest_weight_edge` raises, and what it gives; `c58_slice_partial`: the scheme; `c58_raises`: the only exception; Props/SlicerChoice: `c58_first` (first of the cheapest schemes), `c58_longest`, `c58_cheapest_partial`, `c58_stops`/`c58_gives_up` (when the search ends, stated with the real logarithm), `c58_count` (slices counted in the cost); `c58_contract_partial`: with C01/C03 the contraction is the Einstein sum, also if an edge is listed twice (for this `SliceOK` no longer asks for distinct edges, which also strengthens C03). Not proved: that the cost compared is right for the first subscript taken out of a fresh tree (it is not for the next one, `c58_cost_violated`). `MPSlicer` (a pool of processes around `_slice`) is not modelled |
| C59 | `Compiler` with `do_patch=True` (Model/Patch: `initCmds`, `encAlong`, `reorgPatch`, `patchFinal`, `orderPatch`, `genTemplateWith`, `genTemplatePatch`, `compilePatch`, `TN.compileExecPatch`) | The order in which a set is listed is an argument `perm`; the search of `ContractionTree.patch` for better orders of the large steps is an argument that must give valid orders (`PatchSound`). `TN.Loose`: after `fix()` a tensor may have more dimensions than its node has legs. `encapsulate_loose`, `encAlong_ok`: encapsulating along an order of such a network. `initCmds_ok`: the steps done ahead, run as commands, keep the Einstein sum for every later pinning of the sliced edges (`einsum_pin_group`). `genTemplateWith_ok`, `compileGen_ok` then give a task of the network as for C01. `c59_patch_partial`: the result; `c59_task_partial`: the task. The search itself is C60. |
| C60 | `ContractionTree.from_order`, `patch` and its helpers (Model/Stem: `fromOrder`, `PTree.info`, `shiftStem`, `toDig`, `mergePair`, `Dig.rounds`, `rebuild`, `mergeChain`, `mergeNodes`, `stemPatch`) | The matching of networkx and the order of sets are arguments; a matching must consist of disjoint edges of the graph it is given (`MatchOK`). `fromOrder_spec`: the tree has the names of the order. `DigInv`: each merge keeps the names and the line of branches; `shift_spec`, `mergeNodes_same`: the new tree has the same leaves and inner names, so its order is valid (`PTree.order_valid`). `c60_patch_partial` (stem must be a line), `c60_fails` lists every way to raise, `c60_small`: no large step, no failure; `c60_compile_partial`: with C59, compiling keeps the Einstein sum. |
| C61 | The QAOA demo: `lightcone`, `preprocess_clause`, `decorate`, `query`, `energy`, `optimum`, `checkinstance` (Model/Qaoa) | Spec/Qaoa and Spec/QaoaState define the state layer by layer on all variables, without cones or networks. Lemmas/Cone: pure mathematics, the gates outside the cone cancel (`mean_cone`, induction over levels: rotations are unitary, phases have absolute value 1). Lemmas/Sketch and Lemmas/QaoaNet: the edits `add_node`/`merge_edges`/`update_dimension` on nodes without data never raise and give exactly the listed nodes and legs. Lemmas/QaoaValue: the value of that network is the sum over the cone (`einsum_merge` for every joined pair of edges). `c61_cone` (any commutative semiring, any unitary rotations and phases), `c61_data`, `c61_clause`, `c61_query`, `c61_prob`, `c61_between`, `c61_optimum`. The order of sets is an argument. The task's `execute` stands for the value of the network (C08); compiling networks whose nodes have no data yet is not modelled. |
| C62 | `get_order_finder`, `SlicedOrderFinder.find_order`, `Slicer.slice`, `MPSlicer.slice`, `find_order`, `contract` with them (Model/Finder) | A finder is the list of what it yields; the results of `opt_einsum` and kahypar are arguments of each `next`. `c44_idempotent`: completing a completed network changes nothing. `orderAt_spec`: every order is valid (C31, C32, C56); `find_from`: a scheme is an order read, or comes from slicing orders read (C58). `c62_contract_partial` (orders pairwise, two nodes if sliced), `c62_agree_partial`, `c62_plain` (no such condition for the first two finders), `c62_cheapest` and `c62_mp_some` by induction over the rounds. |
| C63 | `Circuit.append` without `time_step` and `name`, `max_time`, `shape` (Model/Circuit), conversion of the result | `seqFrom` lists the operations with the times 0, 1, …; `c63_append`, `c63_append_fails`: appending gives exactly this or raises; `c63_valid` from C35 (the only time order is the order of appending); `c63_tensor`, `c63_density` from C51 with the inputs and outputs described by the words on the wires. |
| C64 | `GHZState` (Model/Ghz), the constants `ZeroState`, `HGate`, `CNOTGate` | An instance of C63 for every n: the words on the wires and the amplitudes (`ghz_evolve`) by induction over n with Spec/Evolve; `c64_entries` states the entries by bit strings only. |
| C65 | `__or__`, `adjoint`, `tensor_density` together | `c65_overlap_partial` from C38 (matrix of the adjoint circuit), C47/C48 and C55 (product of density matrices); `circ_ends`: the ends of a circuit taken as an operation are those of its wires. Partial: the left circuit has no hand-made names `(t, qubits)` (C39); network data of the adjoint's gates need harmless names. Instance: the number printed by examples/GHZ.py (`c64_fidelity_partial`, `c64_self`, and with noise `c64_noise` from C52). |
| C66 | `IdleGate`, `lamda`, `NoisyHGate`, `NDCompMeas`, `NoisyCZ` of the surface code demo (floats as reals) | entry by entry; `c66_cp_iff` with the quadratic form of the Choi matrix; `c66_lamda` with the fundamental theorem of calculus; `c66_semigroup`, `c66_windows` from the exponential law; with photon noise the claim fails in general (`c66_photons_violated`) |
| C67 | the groups, `add_CZ_gates`, `x_stab_meas`, `z_stab_meas` of the surface code demo on any list of coordinates; coordinates are numbered by an injective `enc`, `use_ndcompmeas` is false (true is C77), coordinates outside the groups (a `KeyError`) are in no group | residues mod 4 decide the partner of each qubit in a slot, so `find?` is the only match (`c67_break`, `c67_parallel`) and the slots are a permutation of the adjacent pairs (`c67_x_pairs`, `c67_z_pairs`); Hadamard and CZ become controlled flips, induction over the pairs (`c67_z`, `c67_x`); the circuit with C63 (`c67_z_tensor`, `c67_x_tensor`) |
| C68 | `initial_state` as a circuit; the corrections of `final_measurement` as operators on amplitudes (the ancillas in the sum over both values are one branch each) | `c68_state` with C63 and C67; stabilizers by commuting projectors and parities of overlaps, for the coordinates of the demo; `c68_correct_x`, `c68_correct_z`: each correction anticommutes with exactly one stabilizer; `c68_distance`: undetected errors on at most two qubits are products of stabilizers (checked by the kernel for the coordinates of the demo); the circuit of `final_measurement` is C77 |
| C69 | `add_idle_noise` on the list of operations in the order of `operations_by_time` (C35 models that order); an operation is its time, its qubits and the four tests the function makes; times in any ordered field | the loop on a wire depends on the operations of the wire only (`idleLoop_wire`), induction over them against the spec `gaps` (`c69_gaps`); `c69_stretch` with the laws of C66; the invariant `Paired` (parity of the Hadamard gates) for the windows; with one Hadamard gate between two measurements, and for `end`, the claim fails (`c69_windows_violated`, `c69_end_violated`) |
| C70 | `add_noisy_surface_code` as the list of its `append` calls (kind, qubits, time), the `dummy` group included, and the loop over rounds of `surface_code_tensor_network`; angles left out; times in any ordered field | the times written out (`noisyRound_eq`), then pairwise comparison of the ten segments of a round (`c70_order`, with `c67_parallel` inside a slot), induction over rounds; the noiseless round is the spec `idealRound` (`c70_ideal`); `c70_windows` discharges the hypothesis of C69 by counting Hadamard gates; that the circuit has a shape is false because of the cross talk (`c70_shape_violated`) |
| C71 | the loops over the nodes `PH` of `surface_code_tensor_network` (`openPH`) and `..._with_syndrome` (`setPH`), with `name[-1]` and `name[0]` of Python; `append`, `\|`, `convert_density`, `expand` and `remove_node` as in C35, C47, C17 | the names of the nodes of the expanded network begin with the time step (invariant through `append`, `\|`, `convert_density`, `expand`), hence `c71_syndrome_violated`; the loop of the first function splits the nodes (`openPH_loop`), and the sum over the new open indices is exchanged with the sum over the edges (`open_sum`, `c71_open`, `c71_outcomes`); `c71_readout` puts this behind `convert_density` and `expand` |
| C72 | `flip_branch`, `step_cost`, `total_cost` on the trees of C60 (`flipRoot`, `flipBranch`); the order of a Python set and the comparison of strings are parameters; inner nodes have two children | `Exact` (every result has exactly the indices seen from outside) is kept by a flip (`c72_exact`), holds for the tree of `from_order` (`c72_from_order`, an invariant of the forest while the network is encapsulated) and makes contraction along the tree the sum over all inner indices (`run_eq`), hence `c72_value`, `c72_contract`; `c72_order` from the names; `c72_memory`; `c72_when` and `c72_stable` say when a flip happens. Missing: the total cost, which can grow (`c72_flops_violated`); `c72_cost`: what `total_cost` counts |
| C73 | `GRCS` and `ISWAP_CZ` of examples/circuit_simulation.py (Model/Grcs): words with the results of `int` and `float`, the tables, the loop over the lines, `simplify`; `SWAPGate` as the network without nodes, `Diagonal | SWAPGate` as the circuit built by `orOper` (Model/Measure); angles are real numbers, `in_state` is a natural number | the gates as in the literature (Spec/Qsim), shown to be unitary (`QGate.unitary_one`, `unitary_two`) and roots of the Pauli matrices (`quarter_square`); `c73_gates`: matrices of the tables; `c73_state`: appending with time steps (`append_timed`), every wire begins with a state and passes through gates (`grcs_word`), C47/C63's evolution, exchange of gates within a layer (`evolve_order`). Missing: files with other lines, where the claim is false (`c73_*_violated`) |
| C74 | `computeErrorRate` after the contraction (Model/Decoder): the einsums as sums, the loop over the readout errors, `sk`, `argmax` (first of the largest), the correction; arrays are functions of their indices, floats are real numbers, any number of outcomes | Spec/Ptm: Pauli matrices, linear maps of matrices and their transfer matrix. `c74_table`, `c74_ptm`, `c74_real`: what the einsums compute; `c74_readout`, `c74_stochastic`, `c74_flip`: induction over the loop, and what `butterfly` stands for; `c74_sk`, `c74_correction`: the signs are the commutation signs, so multiplying with them is applying a Pauli matrix; `c74_decode`, `c74_best`, `c74_likely`, `c74_first`, `c74_perfect`. That the first four legs are input and output of the logical qubit is read off from `initial_state | … | initial_state.adjoint()` (outputs before inputs, C19) |
| C75 | `subscripts(nodes)` and `order_to_subscripts` (Model/Subscripts) on the networks of C11/C18; letters are positions, the iteration order of a set is a parameter | Spec/Subscripts: what einsums with letters and shapes compute, carried out step by step on named tensors. `subscripts_eval`: renaming the edges of an Einstein sum (`einsum_letters`), the dimension of a letter is found at its first place (`find_zip`); `c75_subscripts`: induction over the order with C18's `encapsulate_loose`, `encapsulate_value`; `c75_hash_violated`: without a step `'#'` it is a `KeyError` |
| C76 | `==` with numpy's default tolerances, `norm_squared` of all classes, `normalize`; complex numbers instead of floats | `solid_contract` (C49) for the values, C25 for the product with a number, C28 for the norm; the failures of `==` by concrete numbers and two orthogonal states of 56 qubits |
| C77 | `final_measurement` on an empty circuit, with the networks of `PlaceHolder` and `TraceState`, `use_ndcompmeas=True`; coordinates numbered by an injective `enc` as in C67 | each group of operations on an ancilla is a sum of operators indexed by its values (`clear_acts`, `holder_acts`, `refresh_acts`), induction over the ancillas (`block_one`, `block_two`); the gates by C67; sums of indicators collapse (`final_acts`); the circuit with C63 (`c77_density`); the branches with C68 (`c77_select_x`, `c77_select_z`, `c77_code`) |
| C78 | `is_ready` of the four classes by recursion on the object; a sum counts as valid if its `shape` raises nothing (nothing cached) | induction on objects whose networks are made by orderly edits (`Tidy`): the loop over the nodes reads the dimensions in leg order; a ready sturdy object is `Solid`, so C49 gives its contraction. `_partial`: repeated legs, bare wires and empty sums break the full claims (`c78_*_violated`) |
| C79 | `full_subscripts`, `order_to_subscripts_tree` and `print_order` on the trees of C60; a line is its numbers, indices and step instead of a string | `full_subscripts` and `full_order` list the same inner nodes (induction on the tree), so `order[i]` exists; counting of finite sets; `Exact` of C72 gives the indices of the result. `_partial`: an index of one tensor that is summed at once is printed as an index of the result (`c79_dangling_violated`) |
| C80 | `subscript_to_path` and the loop of `order_to_contraction_scheme` with its cost; `opt_einsum.contract_path` is a parameter that answers for a method and a step | case analysis of the choice; induction over the loop, which refines `resolveOrder` of C32. The claim for exactly `optimal` or `dp` operands fails (`c80_limit_violated`) |
| C44 | `complete_delta` / `_generate_template_delta`: identity and diagonal nodes for repeated, unattached, fixed open edges | loop invariant; identity-matrix insertion law for Einstein sums |

## Trusted base

* Lean's kernel and the three standard axioms `propext`, `Classical.choice`, `Quot.sound` (checked with `#print axioms`).
* The reading of the Python code: the model is hand written; each definition cites the lines it mirrors.
* Documented behaviour of numpy / networkx / opt_einsum calls, listed above.

## Seeded bugs

`seeded/LOG.jsonl` has one line per wrong program: the edited definition, the edit, the property whose English claim is
false of the edited program, the theorems that no longer build, and the property theorems lost. `failed` is measured by
building the edited model; `property_theorems_lost` is inferred: the property theorems whose proofs depend on a failed
lemma. `first_label` appears where the label first written beside the edit named another property than the one whose claim
the edit breaks; it was corrected after looking at the failures and rereading the claim. `tightened` names theorems added
because an edit survived, or because only the proof of a helper lemma broke while no statement spoke about the claim
(`c58_count`, `c58_stops`, `c58_gives_up`, `c58_longest`, `c58_cheapest_partial`, `c58_first`).

## Findings (defects of the code found by reading, with formal witnesses)

Each line names the theorem that exhibits the defect on a concrete reachable state of the model.

| Theorem | What the code does |
|---|---|
| `c11_auto_name_violated` | `add_node()` without a name takes `id(tensor)`-based names; a collision silently re-uses the graph node and leaves stale incidences. |
| `c12_update_node_violated`, `c12_rewire_violated` | `update_node` on a node with a repeated leg and `rewire` accept a tensor whose dimension contradicts the edge. |
| `c13_add_node_violated`, `c13_update_node_violated`, `c13_merge_edges_violated` | a rejected `add_node` / `update_node` / `merge_edges` leaves edges, legs or dimensions changed. |
| `c15_repeated_leg_violated`, `c15_rewire_violated` | `is_valid` compares the shape with the graph neighbours, not with the legs: wrong answer for repeated legs and after `rewire`. |
| `c18_fixed_boundary_violated` | `encapsulate` of nodes touching a fixed boundary edge sums that edge freely inside the new node. |
| `c20_change_fix_violated` | `change_fix=True` only overwrites the first of several fixed values. |
| `c29_one_operand_violated` | a scheme with a one-operand step can be dumped but not loaded. |
| `c30_identity_violated`, `c30_trichotomy_violated` | `ContractionCost` addition drops the slice count; two costs can be neither `<`, `==` nor `>`. |
| `c44_edge_clash_violated`, `c44_star_node_violated` | `complete_delta` re-uses an existing edge called `(e, k)` (changing the tensor) and does nothing if any node is called `'*'`. |
| `c06_two_values_violated` | a closed edge fixed to several values is contracted as (number of values) × (slice of the first value). |
| `c03_dangling_violated`, `c03_fixed_violated`, `c03_unit_open_violated` | slicing an edge no node touches, an already fixed edge, or an open edge of dimension one changes the result of the contraction. |
| `c04_multi_fix_violated`, `c05_multi_fix_violated` | a closed edge fixed to two values multiplies the number of sub-tasks, and the sum of the batches depends on their order. |
| `c07_fewer_values_violated`, `c07_open_fix_violated` | `update_fix` does not recompute the number of sub-tasks when the number of fixed values changes, and ignores fixes on open edges (they have become tensors). |
| `c08_same_str_violated` | names `1` and `"1"` are paired by insertion order in `_load_data`: the arrays are swapped. |
| `c09_collect_first_violated` | sub-tasks share their fix cells; collected first, all of them compute the slice indexed last. |
| `c31_hash_name_violated`, `c32_opt_einsum_violated` | node names of the form `('#', i)` collide with the names given to intermediates (the default finder counts from 0, the opt_einsum finder from 1, whatever the node names are). |
| `c32_wide_entry_violated` | a path entry with three positions loses an operand. |
| `c33_name_reuse_violated` | `_flatten_order` makes a valid order that re-uses a name invalid. |
| `c34_single_node_violated` | compiling a one-node network with `do_patch` fails (`tree_dic['#']`). |
| `c16_repeated_violated` | `merge_edges` with a repeated edge fails with a `KeyError` half way. |
| `c22_value_violated` | `fix()` drops the legs of fixed edges but leaves the tensors unsliced: the network no longer has a meaning. |
| `TSum.c23_rejected_violated`, `TSum.c23_alter_violated` | a rejected `add_term` leaves the cached shape partly filled in; editing a term through another reference leaves the cached shape of the sum stale. |
| `TVal.c24_same_object_violated` | `t + t` raises a `KeyError`. |
| `TVal.c25_vectors_violated`, `TVal.c25_dims_violated`, `TVal.c25_same_object_violated` | `a * b` identifies the leading indices of the operands (exact law: `TVal.c25_actual`), rejects operands whose leading dimensions differ, and for the same object twice drops one factor. |
| `TVal.c25_name_clash_violated` | the names `expand` makes for the closed edges of a factor, `(identifier, edge)`, and the names `complete_delta` makes for copies of an open edge, `(edge, k)`, can coincide: the product is contracted to wrong numbers without an error. |
| `TVal.c19_view_violated`, `TVal.c19_sum_inplace_violated` | `fix_index` of a view returns `None`; `fix_index` of a sum changes the terms of the sum it is called on, whose cached shape stays as it was. |
| `Circ.c40_same_time_violated` | two operations appended at the same explicit time on the same qubits: the second silently replaces the first. |
| `Circ.c39_named_violated` | `a \| b` loses an operation of `a` that was named by hand `(t, qubits)` with another time. |
| `Gate.c46_y_violated` | `YGate` is `[[0, i], [-i, 0]]`, minus the textbook Y: `X Y = -i Z`, and `YHalfGate` (documented as √Y) squares to `-YGate`. |
| `c17_view_violated` | `expand` looks up a node holding a view in a list instead of the node dictionary: `TypeError`. |
| `c17_loop_violated`, `c17_clash_violated`, `c17_tuple_violated` | `expand` loses the factor of a closed loop of bare wires; a prefixed name that is in use already identifies two unrelated edges; `x` and `(x,)` get the same prefixed name. |
| `Circ.c38_scalars_violated` | `~c` appends with explicit times and automatic names: two zero-qubit operations at the same time get the same name and one of them is lost. |
| `Oper.c41_order_violated` | a controlled circuit is converted in the order of the dictionary, not of the times: Controlled of a circuit whose operations were appended out of order has the wrong tensor. |
| `Oper.c38_controlled_violated` | for the same reason `~ControlledCircuit` is converted with its operations in the wrong order. |
| `Oper.c41_empty_violated`, `Oper.c41_reset_violated`, `Oper.c41_nested_violated` | `Controlled` of an empty circuit has one qubit and a tensor without axes; of a circuit that measures and prepares a qubit it is accepted but cannot be converted; of a controlled circuit it raises `AttributeError`. |
| `Oper.c47_superposition_violated` | `tensor_density` of a `SuperPosition`, a pure operation, raises a `ValueError`. |
| `c21_rewire_violated`, `c21_change_fix_violated` | `copy` shares the lists of legs and of fixed values: `rewire` and `fix_edge(..., change_fix=True)` on a copy change the original, after `rewire` it has a leg to an edge it does not have. |
| `Oper.c53_again_violated` | `measure` and `collapse` take positions of outputs for names of qubits: after measuring and removing qubit 0 of three, measuring qubit 1 of the returned circuit fails with a `TypeError` (the remaining output is not traced out); qubits whose names are not 0..N-1 are renamed by `collapse`. |
| `Oper.c52_names_violated` | `add_noise` puts the channel on the positions of the outputs of a nested circuit instead of its qubits: if these are not named 0, 1, …, it raises a `ValueError`. |
| `Oper.c50_complex_violated` | `operation_from_kraus` raises a `TypeError` for every list with a complex operator of an accepted shape: the sum is started as a real array, and numpy refuses to add a complex array to it in place. |
| `Oper.c55_scalars_violated` | `a * b` of two operations without qubits (scalars) is `b`: both are appended at time 0 under the name `(0, ())`, though `append` documents the default name as unique. |
| `c56_single_violated` | The hypergraph order finder on a network that simplifies to one node (matrix times vector, any tree of tensors) ends its order in a step with a single operand; the compiler takes two (`o[0][1]`, compiler.py:104-105) and raises an `IndexError`. |
| `c56_scalar_violated` | On a closed network that simplifies to one scalar node the matrix of `tanner_graph` has no entries and scipy raises a `ValueError`: the finder fails on the scalar product of two vectors. |
| `c56_shared_violated` | In `_simplify` and `simplify` an open edge shared by just two nodes is counted as disappearing when they are merged, though it stays: two nodes can be merged into a tensor with more legs than the larger one. The cost of the yielded order leaves out the steps of the simplification (kahypar_order_finder.py:113-117). |
| `c58_unlimited_violated` | `Slicer(max_num_slice=-1)`, the default, documented as "the constraint will be ignored", never slices: the first test in the loop, `len(slice_edges) >= self.max_num_slice`, already holds. A scheme that is too wide is given up (`None`, which the caller does not expect). |
| `c58_two_nodes_violated` | On a network of two tensors `_biggest_weight_edge` always raises an `IndexError` (`sorted(ss_dic)[0]` of an empty dict): no range of a subscript ends on a stem of two vertices. The same happens on every tree where no subscript ends inside the stem (`c58_edge_partial`). |
| `c58_twice_violated` | With the default parameters the same edge can be sliced twice: where the stem turns away from the root, the range of a subscript is cut in two and both are candidates; the second "removal" is accepted if moving branches alone halves the cost. The scheme lists and counts the edge twice (the value stays right). |
| `c58_slice_partial` | `max_num_slice` can be exceeded by nine: one round may take ten edges. |
| `c58_mutated_violated` | If the local optimisation at the end makes the scheme too wide, the scheme before it is returned, but `_flatten_order` has changed its order in place: steps with more than two operands, of which the compiler uses only the first two. |
| `c58_cost_violated` | The costs compared when a second edge is taken at once are wrong: the subscripts at the edges of the tree are cleared and recomputed one edge at a time from neighbours not yet recomputed (slicer.py:116-120), and the open subscripts are not reduced. |
| `c59_fixed_violated`, `c59_sliced_violated` | With `do_patch=True` compiling raises an `AssertionError` when an edge is fixed (or sliced, with a step over the threshold) and dimensions differ: `fix()` drops the leg of a node but not the dimension of its tensor, and the next `encapsulate` reads the dimensions of the tensor against the remaining legs. |
| `c59_single_violated` | With `do_patch=True` a network of one node cannot be compiled: `from_order` looks up `'#'`, `KeyError`. |
| `c59_reuse_violated` | With `do_patch=True` a step done ahead that names its result like one of its operands reads its own empty cell: `_generate_template_basic` updates `data_ref` before it looks up the operands. Without patching such orders work. |
| `c60_index_violated` | `ContractionTree.patch` raises an `IndexError` on the inner product of two tensors over the threshold: with at most 12 indices left after the shift it looks at the second entry of the shorter chain, which may not exist. |
| `c60_branch_violated` | `ContractionTree.patch` raises a `KeyError` when the last two branches of the longer chain have no indices but those of the stem (vectors contracted into a large tensor): node -1 is never added to the graph. |
| `c60_stem_violated` | When both operands of a step at the stem are large, the stem is not a line, and the order returned by `ContractionTree.patch` uses a tensor twice: it is not a valid order. |
| `c61_subset_violated` | QAOA demo: `preprocess(clauses=...)` with only some clauses replaces `self.clauses`, so `decorate` leaves the phases of the other clauses in the cones without data (`None`). With a dictionary as clause (the documented way to give a weight) `decorate` uses the dictionary as part of a key and raises a `TypeError` (read off, not modelled). |
| `c61_vars_violated` | QAOA demo: `energy` looks variables up by position, so `optimum` raises an `IndexError` when the variables are not `0 … n-1` (e.g. 1 and 2), although `query` works. |
| `c62_endless_violated` | `MPSlicer.slice` loops until it has more than `num_suc_candidates` candidates: if no order can be sliced (always so with the default `max_num_slice = -1` and a too wide order), it never returns, where `Slicer` returns `None` and `contract` raises an `AttributeError` (`c62_none`). |
| `c66_photons_violated` | QEC demo: `IdleGate` with `ts`: `lamda` exceeds 1 where `sin(2 χ t)` is negative, so `p_phi_ > 1` is possible and the map is not completely positive. (With the default parameters this needs windows later than about 1.2 µs after the measurement.) |
| `c70_none_violated` | QEC demo: `add_noisy_surface_code(params=None)` raises an `UnboundLocalError`: `gamma` (:186) is assigned only if `params` is given. |
| `c69_windows_violated` | QEC demo: `add_idle_noise` overwrites the time of the last measurement (:72) before it computes the window of the gate in front of a second `ND` (:78-82): with one noisy Hadamard gate between two measurements `Dt` is negative, so the photon number is taken to be larger than at the measurement. |
| `c69_end_violated` | QEC demo: the idle gates that `add_idle_noise` appends up to `end` (:96-101) have no photon window, although the gate in front of an operation at that time would have one. |
| `c70_shape_violated` | QEC demo: the cross talk gates of the four flux dances are appended at one time step (:181-186, :220-225), so an ancilla or data qubit is used several times at that time. The circuit to which a round is appended has no `shape` (`ValueError`) and `is_valid` is `False`, for all parameters; the demo works only because `\|` gives the operations new times. |
| `c71_syndrome_violated` | QEC demo: `surface_code_tensor_network_with_syndrome` looks for the placeholders with `node_name[0] == 'PH'` (:209), but after `expand` the names begin with the time step and end with `'PH'`: no node is found, `cnt` stays 0, and the network is the same for every syndrome (also of wrong length). |
| (read off) | QEC demo: the other branch (:213-215) tests for `'PH_nz'`, which is the name of an operation, never of a node; its `edges[0][0]` would be the first entry of the name of an edge, not an edge. |
| `PTree.c72_flops_violated` | `flip_branch` decides by the size of the result between the two branches only; the number of operations (`total_cost.s`) can grow, e.g. from 32 to 36 times 2^22 for a stem of 23 indices. |
| (read off) | `flip_branch` is called nowhere in the repository. |
| `c73_ignored_violated` | circuit_simulation.py `GRCS`: a line with three or more parameters is skipped without an error, whatever its gate. |
| `c73_name_violated` | `GRCS`: with parameters the name of the gate is ignored: `h 0 0.5` is loaded as a phase rotation. |
| `c73_blank_violated`, `c73_missing_violated` | `GRCS`: an empty line is an `IndexError`; `rz` and `fs` without parameters are a `KeyError`. |
| `c73_repeated_violated` | `GRCS`: two lines with the same targets in the same layer: only the second one is kept (automatic names, cf. C40). |
| `c73_iswap_cz_violated` | `ISWAP_CZ` is declared self-adjoint, its matrix is not Hermitian: `adjoint` returns the gate itself instead of its inverse. |
| `c73_simplify_violated` | `GRCS(..., simplify=True)` replaces every operation of layer 2 and of the last but two by the two-qubit gate `ISWAP_CZ`; with a one-qubit gate there the circuit has no shape. |
| (read off) | circuit_simulation.py, main: sums `tsk[0]` to `tsk[4]`; `ContractionTask.__getitem__` takes indices modulo the lengths, so with fewer than 5 sub-tasks some are summed repeatedly. |
| (read off) | decoder.py: the entry `butterfly` of the parameters (readout error 0.0015) is never used; `computeErrorRate` reads `e_ro`, which the parameters do not have, so the default 0.01 is taken. |
| `c75_hash_violated` | `order_to_subscripts` (hence `order_to_contraction_scheme`) raises `KeyError` for an order whose last step is not named `'#'`: the operands of the last step are looked up after they were encapsulated. |
| `c76_symm_violated`, `c76_trans_violated` | `==` of tensor objects is `numpy.allclose`, which is neither symmetric nor transitive. |
| `c76_states_violated` | `==` has an absolute tolerance of 1e-8: two orthogonal normalized states of 56 qubits are equal. |
| `c76_zero_violated` | `normalize` of a zero object divides by zero (numpy gives `nan` entries with a warning). |
| `c77_density` | The corrections of `final_measurement` do not depend on the measured outcomes: after `PlaceHolder` the ancilla is replaced by a new mixed state (`TraceState`), so that all pairs of outcome and correction are added up; the code relies on the projection on the code that follows (`init_state | d | initial_state(...).adjoint()`) to select the right ones (`c77_select_x`, `c77_select_z`). |
| `c78_repeated_leg_violated` | `is_ready` reads the edges of a node off the graph, where a repeated edge is listed once: the trace of a matrix, which contracts, says that it is not ready. |
| `c78_wire_violated`, `c78_empty_sum_violated` | `is_ready` is True for a bare open wire of unknown dimension and for a sum without terms, neither of which has a definite shape. |
| `c79_dangling_violated` | `print_order` counts an index that occurs in one tensor only and is summed in the step as an index of the result. |
| `c80_limit_violated` | `optimal` and `dp` are documented as the maximum numbers of tensors for the advanced searches, but the comparisons are strict: with exactly that many the weaker search is used. |

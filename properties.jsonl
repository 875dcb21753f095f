{"id": "C01", "title": "contract() computes the Einstein sum", "statement": "For a tensor network whose nodes hold arrays, contract() returns the array whose entry at an index tuple is the sum, over all values of the closed edges (a fixed edge ranges only over the values it is fixed to), of the product of the node entries; a repeated open edge acts as a Kronecker delta, an open edge touching no node as an all-ones vector, and a fixed open edge as zero outside its fixed value.", "quantifier": "every network: any number of nodes, hyperedges of any degree, repeated legs, repeated or dangling open edges, fixed edges, any bond dimensions, entries in any commutative semiring", "why_tests_cant": "tests compare a handful of small random networks with numpy.einsum; the claim ranges over all graph structures and all dimensions", "anchors": ["acqdp/tensor_network/tensor_network.py:TensorNetwork.contract", "acqdp/tensor_network/tensor_network.py:TensorNetwork.complete_delta", "acqdp/tensor_network/compiler.py:Compiler.compile", "acqdp/tensor_network/contraction.py:ContractionTask.execute", "acqdp/tensor_network/contractor.py:Contractor.execute"]}
{"id": "C02", "title": "The result does not depend on the contraction order", "statement": "compile(scheme).execute() returns the same array for every valid pairwise contraction order of the same network: contracting two tensors at a time, summing an edge away exactly when no remaining tensor and no open edge uses it, always ends in the one-shot Einstein sum.", "quantifier": "every network and every pairwise order that consumes each current tensor once and ends in one tensor", "why_tests_cant": "the number of orders is super-exponential in the number of nodes; tests try the few orders the finders happen to return", "anchors": ["acqdp/tensor_network/compiler.py:Compiler._generate_template", "acqdp/tensor_network/order_finder.py:OrderFinder.find_order", "acqdp/tensor_network/local_optimizer.py:OrderResolver.order_to_subscripts"]}
{"id": "C03", "title": "Slicing does not change the result", "statement": "For any list of distinct sliced edges (closed, open, or both) in a contraction scheme, executing all sub-tasks of the compiled task and merging them gives the same array as the unsliced contraction.", "quantifier": "every network, every duplicate-free list of sliced edges, every bond dimension", "why_tests_cant": "the set of sliceable edge lists is exponential and the index arithmetic depends on all the dimensions at once", "anchors": ["acqdp/tensor_network/compiler.py:Compiler._generate_template", "acqdp/tensor_network/compiler.py:Compiler._generate_template_fix", "acqdp/tensor_network/contraction.py:ContractionTask._merge", "acqdp/tensor_network/contraction.py:ContractionTask.__getitem__"]}
{"id": "C04", "title": "Sub-task numbers enumerate the slice assignments exactly once", "statement": "With sliced edges of sizes d1..dk, len = d1*...*dk and task[0], ..., task[len-1] select every combination of values of the sliced edges exactly once; the merge step decodes a sub-task number to the same combination that execution used.", "quantifier": "every list of sliced-edge sizes and every sub-task number", "why_tests_cant": "off-by-one or radix errors show only for particular mixed sizes; tests use equal sizes of 2", "anchors": ["acqdp/tensor_network/contraction.py:ContractionTask.__init__", "acqdp/tensor_network/contraction.py:ContractionTask.__getitem__", "acqdp/tensor_network/contraction.py:ContractionTask._merge"]}
{"id": "C05", "title": "Sub-task work can be split arbitrarily", "statement": "Executing any partition of the sub-task numbers as separate batches (execute with lst) and adding the returned arrays gives the same array as executing all of them in one call, whatever the order of the batches.", "quantifier": "every partition of range(length) into batches and every batch order", "why_tests_cant": "the number of partitions is exponential; tests run a single batch", "anchors": ["acqdp/tensor_network/contractor.py:Contractor.execute", "acqdp/tensor_network/contraction.py:ContractionTask._merge"]}
{"id": "C06", "title": "A closed edge fixed to a set of values is summed over exactly that set", "statement": "If a closed edge is fixed with fix_edge to a set of admissible values, contract() sums over exactly those values: one value selects that slice, several values add up their slices, the empty set gives zero.", "quantifier": "every network, every closed edge and every subset of its range", "why_tests_cant": "tests fix edges to single integers only", "anchors": ["acqdp/tensor_network/tensor_network.py:TensorNetwork.fix_edge", "acqdp/tensor_network/compiler.py:Compiler._generate_template_edge_fix", "acqdp/tensor_network/compiler.py:Compiler._generate_template_fix", "acqdp/tensor_network/contraction.py:ContractionTask.__getitem__"]}
{"id": "C07", "title": "update_fix retargets a compiled task", "statement": "After compiling a task once, task.update_fix(tn2) followed by execute() gives the contraction of tn2, for every tn2 that differs from the compiled network only in the values its fixed edges are fixed to.", "quantifier": "every compiled task and every new choice of fixed values (any number of times, in any sequence)", "why_tests_cant": "depends on the history of update_fix / execute calls and on cached pre-computation", "anchors": ["acqdp/tensor_network/contraction.py:ContractionTask.update_fix", "acqdp/tensor_network/contraction.py:ContractionTask.execute"]}
{"id": "C08", "title": "Task data are bound to nodes by name", "statement": "When a compiled task is given a dictionary of tensors with set_data, each input node of the network receives the tensor stored under its own name.", "quantifier": "every set of node names (integers, strings, tuples, mixtures) and every dictionary with those keys, in any insertion order", "why_tests_cant": "binding goes through two independent sorts with a string fallback; only adversarial names separate it from lookup by name", "anchors": ["acqdp/tensor_network/contraction.py:ContractionTask._load_data", "acqdp/tensor_network/contraction.py:ContractionTask.set_data"]}
{"id": "C09", "title": "Sub-tasks may be collected first and executed later", "statement": "A list of sub-tasks taken from a task by indexing represents the sub-tasks with those numbers, no matter when and in what order they are executed.", "quantifier": "every task, every list of sub-task numbers, every interleaving of indexing and executing", "why_tests_cant": "tests execute each sub-task immediately after indexing it", "anchors": ["acqdp/tensor_network/contraction.py:ContractionTask.__getitem__", "acqdp/tensor_network/contractor.py:Contractor.execute"]}
{"id": "C10", "title": "Log-normalised execution is exact", "statement": "Executing with normalize=True returns the same array as executing without normalisation (over the reals, i.e. apart from rounding), including when an intermediate tensor is identically zero.", "quantifier": "every command list and all data", "why_tests_cant": "the bookkeeping of accumulated norms must be right for every dataflow graph and zero pattern", "anchors": ["acqdp/tensor_network/contractor.py:Contractor._execute"]}
{"id": "C11", "title": "Structural consistency after any edit history", "statement": "After any sequence of successful network edits (add/pop/remove/update node, add/open/close/fix/merge edges, rewire, fix_index, encapsulate) every leg of every node and every open edge names an existing edge, and the incidence graph links a node to exactly the edges on its legs.", "quantifier": "every finite sequence of public editing calls starting from the empty network", "why_tests_cant": "unbounded histories; tests run short scripted ones", "anchors": ["acqdp/tensor_network/tensor_network.py:TensorNetwork.add_node", "acqdp/tensor_network/tensor_network.py:TensorNetwork.rewire", "acqdp/tensor_network/tensor_network.py:TensorNetwork.merge_edges", "acqdp/tensor_network/tensor_network.py:TensorNetwork.pop_node", "acqdp/tensor_network/tensor_network.py:TensorNetwork.open_edge"]}
{"id": "C12", "title": "Bond dimensions are never silently changed", "statement": "Once an edge has a definite bond dimension, no successful edit that keeps the edge changes it, and a tensor whose definite dimension on some leg disagrees is rejected with an error.", "quantifier": "every finite sequence of public editing calls", "why_tests_cant": "unbounded histories", "anchors": ["acqdp/tensor_network/tensor_network.py:TensorNetwork.update_dimension", "acqdp/tensor_network/tensor_network.py:TensorNetwork.add_edge", "acqdp/tensor_network/tensor_network.py:TensorNetwork.update_node"]}
{"id": "C13", "title": "A rejected edit leaves the network unchanged", "statement": "If add_node, update_node, merge_edges or fix_edge raises, the network is the same as before the call.", "quantifier": "every network state and every rejected call", "why_tests_cant": "tests check that the exception is raised, not the state that is left behind", "anchors": ["acqdp/tensor_network/tensor_network.py:TensorNetwork.add_node", "acqdp/tensor_network/tensor_network.py:TensorNetwork.update_node", "acqdp/tensor_network/tensor_network.py:TensorNetwork.merge_edges"]}
{"id": "C14", "title": "Effect of node and edge edits on the shape", "statement": "open_edge appends that edge's dimension to shape; close_edge removes every occurrence and nothing else; pop_node leaves shape unchanged; remove_node appends the dimensions of the removed node's legs; fix_index(i) removes exactly position i.", "quantifier": "every network state and every edge, node or index", "why_tests_cant": "holds for arbitrary multiplicities and positions", "anchors": ["acqdp/tensor_network/tensor_network.py:TensorNetwork.shape", "acqdp/tensor_network/tensor_network.py:TensorNetwork.open_edge", "acqdp/tensor_network/tensor_network.py:TensorNetwork.close_edge", "acqdp/tensor_network/tensor_network.py:TensorNetwork.remove_node", "acqdp/tensor_network/tensor_network.py:TensorNetwork.fix_index"]}
{"id": "C15", "title": "is_valid is true exactly when shapes match the edges", "statement": "is_valid returns True if and only if every node whose shape is known has as many dimensions as legs and no definite dimension conflicts with the definite dimension of the edge on that leg.", "quantifier": "every network reachable by edits", "why_tests_cant": "false positives/negatives only appear for repeated legs or after rewiring", "anchors": ["acqdp/tensor_network/tensor_network.py:TensorNetwork.is_valid", "acqdp/tensor_network/tensor_network.py:TensorNetwork.is_ready"]}
{"id": "C16", "title": "Merging edges identifies the indices", "statement": "merge_edges(edges) yields a network whose value is obtained from the original summation by forcing all the merged edges to take the same value (restricted to the intersection of their fixes).", "quantifier": "every network and every non-empty list of its edges with equal dimension", "why_tests_cant": "all structures, including edges on the same node and open edges", "anchors": ["acqdp/tensor_network/tensor_network.py:TensorNetwork.merge_edges"]}
{"id": "C17", "title": "Expanding nested networks preserves the value", "statement": "expand() of a network having networks as nodes represents the same tensor as the nested network.", "quantifier": "every nesting depth, every inner and outer structure", "why_tests_cant": "inner wires, repeated open edges and name clashes interact; tests only cover simple nests", "anchors": ["acqdp/tensor_network/tensor_network.py:TensorNetwork.expand", "acqdp/tensor_network/tensor_network.py:TensorNetwork.add_attribute_to_names"]}
{"id": "C18", "title": "Encapsulating or partially contracting a sub-network preserves the value", "statement": "encapsulate(nodes) and partial_contract(nodes) leave the value of the network unchanged.", "quantifier": "every network and every set of its nodes", "why_tests_cant": "exponentially many sub-sets; fixed and open edges at the boundary", "anchors": ["acqdp/tensor_network/tensor_network.py:TensorNetwork.encapsulate", "acqdp/tensor_network/tensor_network.py:TensorNetwork.subtn", "acqdp/tensor_network/tensor_network.py:TensorNetwork.partial_contract"]}
{"id": "C19", "title": "fix_index selects a slice", "statement": "contract() after fix_index(i, v) equals the slice of the original value at value v of index i; fixing several indices in any order gives the same slice.", "quantifier": "every tensor, network or sum, every in-range index and value, every sequence of fixes", "why_tests_cant": "unbounded sequences and repeated open edges", "anchors": ["acqdp/tensor_network/tensor_network.py:TensorNetwork.fix_index", "acqdp/tensor_network/tensor.py:Tensor.fix_index", "acqdp/tensor_network/tensor_sum.py:TensorSum.fix_index"]}
{"id": "C20", "title": "Repeated fixes intersect, change_fix overrides", "statement": "fix_edge repeatedly applied to an edge restricts it to the intersection of all the values given; with change_fix=True the edge is fixed to the given value regardless of earlier fixes.", "quantifier": "every sequence of fix_edge calls on an edge", "why_tests_cant": "unbounded sequences", "anchors": ["acqdp/tensor_network/tensor_network.py:TensorNetwork.fix_edge"]}
{"id": "C21", "title": "A copy is independent of the original", "statement": "Editing a network obtained by copy() (or the original afterwards) does not change the other one.", "quantifier": "every pair of edit sequences applied to the two objects", "why_tests_cant": "aliasing shows only for edits that mutate shared lists", "anchors": ["acqdp/tensor_network/tensor_network.py:TensorNetwork.copy", "acqdp/tensor_network/tensor_network.py:TensorNetwork.rewire", "acqdp/tensor_network/tensor_network.py:TensorNetwork.fix_edge"]}
{"id": "C22", "title": "fix() removes fixed edges without changing the value", "statement": "fix() removes every leg that lies on a fixed edge, removes the fixed closed edges, and the network represents the same tensor as before.", "quantifier": "every network with any set of fixed edges", "why_tests_cant": "documented as value-preserving; tests never contract after calling it on its own", "anchors": ["acqdp/tensor_network/tensor_network.py:TensorNetwork.fix"]}
{"id": "C23", "title": "Sum objects report the common shape after any history", "statement": "After any sequence of add_term, update_term, remove_term and shape queries (including rejected ones), the shape reported by a TensorSum is the merge of the shapes of its current terms, or an error if they are incompatible.", "quantifier": "every finite sequence of calls", "why_tests_cant": "the cached shape is mutated in place; unbounded histories", "anchors": ["acqdp/tensor_network/tensor_sum.py:TensorSum.shape", "acqdp/tensor_network/tensor_sum.py:TensorSum.add_term", "acqdp/tensor_network/tensor_sum.py:TensorSum.update_term", "acqdp/tensor_network/tensor_sum.py:TensorSum.remove_term"]}
{"id": "C24", "title": "Addition, negation and subtraction are entrywise", "statement": "(a+b), (-a) and (a-b) contract to the entrywise sum, negation and difference; a TensorSum contracts to the entrywise sum of its terms.", "quantifier": "all tensor-valued operands of equal shape (including the same object twice)", "why_tests_cant": "ranges over all objects and all nestings", "anchors": ["acqdp/tensor_network/tensor_valued.py:TensorValued.__add__", "acqdp/tensor_network/tensor_valued.py:TensorValued.__neg__", "acqdp/tensor_network/tensor_valued.py:TensorValued.__sub__", "acqdp/tensor_network/tensor_sum.py:TensorSum.contract"]}
{"id": "C25", "title": "a * b is the tensor product", "statement": "(a*b).contract()[i ++ j] = a[i] * b[j] for every index i of a and j of b.", "quantifier": "all pairs of tensor-valued operands of any ranks", "why_tests_cant": "ranges over all ranks; the tests use scalars", "anchors": ["acqdp/tensor_network/tensor_valued.py:TensorValued.__mul__"]}
{"id": "C26", "title": "~t is the entrywise complex conjugate", "statement": "(~t).contract() is the entrywise complex conjugate of t.contract() for every nesting of tensors, networks, sums and views; ~~t has the value of t.", "quantifier": "every tensor-valued object of any nesting depth", "why_tests_cant": "structural induction over arbitrary nestings", "anchors": ["acqdp/tensor_network/tensor_valued.py:conjugate", "acqdp/tensor_network/tensor_view.py:TensorView.contract"]}
{"id": "C27", "title": "Transposition permutes indices", "statement": "(t % axes).contract()[i_axes[0], ..., i_axes[n-1]] = t[i_0, ..., i_{n-1}] for each permutation axes; composing two transpositions composes the permutations.", "quantifier": "every tensor-valued object and every permutation of its indices", "why_tests_cant": "n! permutations for every rank n", "anchors": ["acqdp/tensor_network/tensor_valued.py:transpose"]}
{"id": "C28", "title": "norm_squared is the squared Frobenius norm", "statement": "t.norm_squared equals the sum of |entry|^2 of t; it is non-negative, and zero only for the zero tensor.", "quantifier": "every tensor-valued object with complex entries", "why_tests_cant": "ranges over all objects including networks made of bare wires", "anchors": ["acqdp/tensor_network/tensor_valued.py:TensorValued.norm_squared", "acqdp/tensor_network/tensor.py:Tensor.norm_squared"]}
{"id": "C29", "title": "Contraction schemes survive a save/load round trip", "statement": "Loading a scheme that was written with dump gives back the same order, slices and cost.", "quantifier": "every scheme (any node names made of strings, integers and nested tuples)", "why_tests_cant": "recursive names of any depth and every step arity", "anchors": ["acqdp/tensor_network/contraction.py:ContractionScheme.dump", "acqdp/tensor_network/contraction.py:ContractionScheme.load"]}
{"id": "C30", "title": "Costs form a consistent order and sum", "statement": "ContractionCost addition is commutative and associative with identity 0; a sum over steps has the total flops and the maximum width independent of grouping; < and == are consistent (exactly one of <, ==, > holds).", "quantifier": "all costs and all finite sequences of costs", "why_tests_cant": "algebraic laws over all triples", "anchors": ["acqdp/tensor_network/contraction.py:ContractionCost"]}
{"id": "C31", "title": "Default order finding always yields a valid order", "statement": "For every network, find_order() with the default finder returns a pairwise order in which each node occurs exactly once as an operand, each intermediate is used exactly once after it is produced, and the last step produces '#'.", "quantifier": "every network (any number of nodes and any sortable names) and every tie-breaking of the sort", "why_tests_cant": "all sizes", "anchors": ["acqdp/tensor_network/order_finder.py:OrderFinder.find_order"]}
{"id": "C32", "title": "Turning an einsum path into a named order keeps it valid", "statement": "For every valid contraction path over the operands of a step, the named pairwise order generated for it consumes every operand exactly once, uses fresh intermediate names that clash with no name in the original order, and ends in the step's result name.", "quantifier": "every order, every step and every valid pairwise path (so every external path optimiser)", "why_tests_cant": "the path comes from an external heuristic; any path may occur", "anchors": ["acqdp/tensor_network/local_optimizer.py:OrderResolver.path_to_paired_order", "acqdp/tensor_network/contraction.py:OrderCounter", "acqdp/tensor_network/local_optimizer.py:OrderResolver.order_to_contraction_scheme"]}
{"id": "C33", "title": "Local optimisation keeps a valid order valid", "statement": "Flattening some steps of a valid order into larger steps, for any size bound, offset and any table of tensor sizes, yields an order that still consumes everything exactly once and produces the same final tensor.", "quantifier": "every valid order, every size bound and random offset, any number of iterations", "why_tests_cant": "the choice is random and repeated; unbounded iterations", "anchors": ["acqdp/tensor_network/local_optimizer.py:LocalOptimizer._flatten_order", "acqdp/tensor_network/local_optimizer.py:LocalOptimizer.optimize"]}
{"id": "C34", "title": "Reorganising an order at compile time keeps it valid", "statement": "Splitting an order into pre-computed small steps and remaining steps (do_patch) yields init_order followed by final_order that is a permutation of the steps and still a valid order, for any size threshold.", "quantifier": "every valid order, every size table and threshold", "why_tests_cant": "unbounded orders", "anchors": ["acqdp/tensor_network/compiler.py:Compiler._reorg_order"]}
{"id": "C35", "title": "A circuit's shape is what its wires say", "statement": "Circuit.shape succeeds exactly when on every qubit the operations, in time order, can be connected (a qubit is used at most once per time step, and every output is followed by an input and vice versa), and then reports for each qubit whether it has a free input at the start and a free output at the end.", "quantifier": "every circuit: any number of operations, qubits, time steps and operation shapes", "why_tests_cant": "all interleavings of preparations, gates and measurements", "anchors": ["acqdp/circuit/circuit.py:Circuit.shape", "acqdp/circuit/circuit.py:Circuit.is_valid", "acqdp/circuit/circuit.py:Circuit.operations_by_time"]}
{"id": "C36", "title": "tensor_pure of a circuit is the time-ordered composition", "statement": "For every valid pure circuit the tensor network produced by tensor_pure has value equal to applying the operations one after another in time order to the state of the qubits.", "quantifier": "every valid circuit of any size with any gates, states and measurements", "why_tests_cant": "exponentially many circuits; edge naming must never clash", "anchors": ["acqdp/circuit/converter.py:Converter.convert_pure"]}
{"id": "C37", "title": "tensor_density of a pure operation is the pure tensor times its conjugate", "statement": "For a pure operation with tensor T, tensor_density contracts to D[i ++ j] = T[i] * conj(T[j]).", "quantifier": "every pure operation of any rank", "why_tests_cant": "all ranks and values", "anchors": ["acqdp/circuit/converter.py:Converter.convert_density"]}
{"id": "C38", "title": "adjoint is the conjugate transpose", "statement": "For a pure operation with tensor T[out, in], ~op has tensor conj(T[out, in]) indexed [in, out], the shape has inputs and outputs exchanged, and ~~op has the tensor and the shape of op; for a circuit, ~c applies the adjoints in reverse order.", "quantifier": "every pure operation of any shape, every pure circuit", "why_tests_cant": "all shapes, all circuits", "anchors": ["acqdp/circuit/circuit.py:PureOperation.adjoint", "acqdp/circuit/circuit.py:ControlledOperation.adjoint", "acqdp/circuit/circuit.py:Circuit.adjoint"]}
{"id": "C39", "title": "Circuit composition keeps all operations in order", "statement": "a | b contains exactly the operations of a at their times followed by all operations of b in b's time order, and a, b themselves are unchanged; copying a circuit keeps names, times, operations and qubits.", "quantifier": "every pair of circuits", "why_tests_cant": "all sizes and names", "anchors": ["acqdp/circuit/circuit.py:Operation.__or__", "acqdp/circuit/circuit.py:Circuit.append", "acqdp/circuit/circuit.py:Circuit.__copy__"]}
{"id": "C40", "title": "append never loses an operation", "statement": "Appending an operation to a circuit without giving a name keeps all operations that are already in it and adds exactly one.", "quantifier": "every circuit and every append call (any time step, any qubits)", "why_tests_cant": "depends on the whole history of names", "anchors": ["acqdp/circuit/circuit.py:Circuit.append"]}
{"id": "C41", "title": "Controlled operations are block diagonal", "statement": "Controlled(op) has tensor: identity on the block where the control does not match conditioned_on and op on the block where it matches, for gates and for circuits.", "quantifier": "every pure unitary operation or circuit, both values of conditioned_on, nested controls", "why_tests_cant": "all ranks, all circuits", "anchors": ["acqdp/circuit/circuit.py:Controlled", "acqdp/circuit/circuit.py:ControlledCircuit", "acqdp/circuit/converter.py:Converter.convert_pure"]}
{"id": "C42", "title": "Noise channels are trace preserving and have the documented Kraus form", "statement": "Depolarization(px,py,pz) is the mixture of I, X, Y, Z with weights 1-px-py-pz, px, py, pz; Dephasing and AmplitudeDampling are the standard channels; all preserve the trace for all parameter values.", "quantifier": "all real parameters", "why_tests_cant": "continuous parameters", "anchors": ["acqdp/circuit/noise.py:Depolarization", "acqdp/circuit/noise.py:Dephasing", "acqdp/circuit/noise.py:AmplitudeDampling"]}
{"id": "C43", "title": "Rotation gates form one-parameter unitary groups", "statement": "XRotation(a) followed by XRotation(b) is XRotation(a+b), ~XRotation(a) = XRotation(-a), the gates are unitary and equal cos(a) I + i sin(a) X; likewise for Z, XX and ZZ.", "quantifier": "all real angles", "why_tests_cant": "continuous parameters", "anchors": ["acqdp/circuit/circuit.py:XRotation", "acqdp/circuit/circuit.py:ZRotation", "acqdp/circuit/circuit.py:ZZRotation", "acqdp/circuit/circuit.py:XXRotation"]}
{"id": "C44", "title": "complete_delta keeps the tensor", "statement": "complete_delta leaves the represented tensor and its shape unchanged, and afterwards the open edges are pairwise distinct, attached to a node and not fixed.", "quantifier": "all networks with known dimensions", "why_tests_cant": "unboundedly many open edges, repetitions and fixed values", "anchors": ["acqdp/tensor_network/tensor_network.py:complete_delta", "acqdp/tensor_network/compiler.py:_generate_template_delta"]}
{"id": "C45", "title": "Orders and einsum paths convert into each other", "statement": "order_to_path turns every valid pairwise order into a valid einsum path of the same length, and reading the path off the order that path_to_paired_order makes of a valid pairwise path gives the same path back.", "quantifier": "every valid pairwise order over distinct names; every valid pairwise path over any number of operands", "why_tests_cant": "unboundedly many orders and paths", "anchors": ["acqdp/tensor_network/local_optimizer.py:OrderResolver.order_to_path", "acqdp/tensor_network/local_optimizer.py:OrderResolver.path_to_paired_order"]}
{"id": "C46", "title": "The named gates satisfy the textbook identities", "statement": "X, Y, Z, H, S, T, X/2, Y/2, CZ, CNOT and SWAP as defined in the code are unitary and satisfy XY = iZ (and cyclic), S^2 = Z, T^2 = S, (X/2)^2 = X, (Y/2)^2 = Y, HXH = Z, (I x H) CZ (I x H) = CNOT and SWAP = CNOT(1,2) CNOT(2,1) CNOT(1,2); the gates marked self_adjoint are self-adjoint.", "quantifier": "all gate constants of the module", "why_tests_cant": "floating point comparisons only show approximate equality; a proof over the complex numbers is exact", "anchors": ["acqdp/circuit/circuit.py:XGate", "acqdp/circuit/circuit.py:YGate", "acqdp/circuit/circuit.py:HGate", "acqdp/circuit/circuit.py:YHalfGate", "acqdp/circuit/circuit.py:CNOTGate"]}
{"id": "C47", "title": "tensor_density of a circuit is the composition of its operations on density matrices", "statement": "For every operation with a density representation - density data (noise channels), gates, controlled gates, controlled circuits, and valid circuits of such operations nested to any depth - tensor_density has as entries those of the time-ordered composition of the operations acting on density matrices, with axes outputs, inputs, outputs', inputs' in increasing order of the qubits.", "quantifier": "every circuit, nesting depth, number of qubits and time assignment", "why_tests_cant": "unbounded circuits; wire bookkeeping errors show only for particular interleavings of preparations, measurements and noise", "anchors": ["acqdp/circuit/converter.py:Converter.convert_density", "acqdp/circuit/circuit.py:Circuit.tensor_density"]}
{"id": "C48", "title": "The density representation of a noiseless circuit is that of its pure tensor", "statement": "For an operation without noise, nested to any depth, tensor_density (converted forward in time, gate by gate) and tensor_pure (converted backwards in time) agree: D[x ++ y] = T[x] * conj(T[y]).", "quantifier": "every noiseless circuit and every pair of indices", "why_tests_cant": "two different conversion algorithms must agree on all circuits", "anchors": ["acqdp/circuit/converter.py:Converter.convert_density", "acqdp/circuit/converter.py:Converter.convert_pure"]}
{"id": "C49", "title": "Contracting an operation gives its matrix", "statement": "For every operation - gate, controlled gate, controlled circuit, circuit nested to any depth, including states and measurements that fix edges - converting it to a tensor and calling contract succeeds and returns the array whose shape is one axis of size 2 per output and input and whose entries are those of the matrix of the operation (the time-ordered product of its gates).", "quantifier": "every circuit, nesting depth, number of qubits, time assignment, and index", "why_tests_cant": "end-to-end statement over all circuits: conversion, expansion, completion of hyperedges, order search, compilation and execution composed", "anchors": ["acqdp/circuit/circuit.py:Operation.tensor_pure", "acqdp/circuit/converter.py:Converter.convert_pure", "acqdp/tensor_network/tensor_network.py:TensorNetwork.contract", "acqdp/tensor_network/contractor.py:ContractionTask.execute"]}
{"id": "C50", "title": "Operations given by arrays and Kraus operators act as these matrices", "statement": "An operation made from a numpy array (Unitary, PureState, PureMeas, State, Measurement, Channel, Diagonal and the general constructors) has the entries of the array in row-major order: rows and columns are numbered in binary, outputs before inputs; an array whose number of entries does not fit the shape raises ValueError. operation_from_kraus(shape, Ks) builds the map rho -> sum K rho K^dagger on the qubits it is attached to, for operators given as matrices or with one axis per qubit; an entry that is no array raises TypeError, one of another shape ValueError.", "quantifier": "every number of qubits, shape without control letters, list of operators, qubits, density matrix and entries", "why_tests_cant": "the tests try two real 2x2 operators on one qubit; the index order matters from two qubits with different inputs and outputs on, and complex operators are never tried", "anchors": ["acqdp/circuit/circuit.py:ImmutableOperation.process", "acqdp/circuit/circuit.py:ImmutableOperation.operation_from_kraus", "acqdp/circuit/circuit.py:PureOperation.process", "acqdp/circuit/circuit.py:ControlledOperation.process"]}
{"id": "C51", "title": "Nesting of circuits does not matter", "statement": "A circuit appended to a circuit as one operation acts exactly as its own operations, in their time order, on the qubits to which it is attached by position - to every depth, for state vectors and for density matrices. So the entries of tensor_pure and of tensor_density are those of the flat sequence of all gates the circuit contains, and they do not depend on how the gates are grouped into sub-circuits.", "quantifier": "every circuit, every nesting depth, every choice of qubit names inside and outside, operations that open, close and reopen wires", "why_tests_cant": "quantifies over all groupings and all renamings; a test compares a handful of nested circuits with their flat counterparts", "anchors": ["acqdp/circuit/circuit.py:Circuit.append", "acqdp/circuit/circuit.py:Circuit.shape", "acqdp/circuit/converter.py:Converter.convert_pure", "acqdp/circuit/converter.py:Converter.convert_density"]}
{"id": "C52", "title": "Adding noise to a circuit", "statement": "add_noise(circuit, channel) with a one-qubit channel returns a circuit with the same operation names, times, qubits, inputs and outputs, whose density matrix is obtained by applying the operations of the circuit in the order of time, each followed by the channel on each of its outputs (and on nothing else).", "quantifier": "every valid circuit with pure, noisy and controlled operations and nested circuits, every one-qubit channel, all matrix entries", "why_tests_cant": "a test compares a few noisy circuits numerically; where the channel is put depends on the shapes, nesting and qubit names of all operations", "anchors": ["acqdp/circuit/noise.py:add_noise", "acqdp/circuit/circuit.py:Operation.__or__", "acqdp/circuit/circuit.py:Circuit.append"]}
{"id": "C53", "title": "Measuring a qubit", "statement": "For a circuit that prepares a state, measure(q) draws the outcome with the probability of 1 at q in the density matrix of the circuit, and returns a circuit that prepares the conditional state of the drawn outcome: the entries of the density matrix with the other value of q are gone, all others are divided by the probability (trace one), on the same qubits, without q if it is to be removed. collapse() replaces a circuit by a single state with the same density matrix on the same qubits. A kept qubit measured again gives the same outcome with probability one; the returned circuit can be measured further.", "quantifier": "every circuit preparing a state (pure or mixed, nested to any depth), every number of qubits, every output qubit, both outcomes, all combinations of the flags", "why_tests_cant": "outcomes are random and states continuous; a test sees single runs on a few circuits and cannot cover entangled mixed states of any size", "anchors": ["acqdp/circuit/circuit.py:Circuit.measure", "acqdp/circuit/circuit.py:Circuit.collapse", "acqdp/circuit/circuit.py:Circuit.append", "acqdp/circuit/circuit.py:Trace"]}
{"id": "C54", "title": "Circuits of normalised operations keep the trace", "statement": "If every gate in a circuit has orthonormal columns (controlled gates: in every block), every pure state is normalised, and every channel satisfies the completeness relation, then the circuit keeps the trace of density matrices, and has orthonormal columns if it is pure, however deeply circuits and controls are nested. A circuit that prepares a state from such operations has trace one, and the probabilities of the two values of each qubit sum to one. Appending such an operation to any circuit preparing a state leaves its trace unchanged, and along every sequence of appends and measurements the trace stays one.", "quantifier": "every circuit, every number of qubits, every nesting depth, all gates, controlled gates, channels, states with normalised data, every sequence of appends and measurements", "why_tests_cant": "conservation of probability is a statement about all states and all circuits; a test adds up the probabilities of a few circuits to within a tolerance", "anchors": ["acqdp/circuit/circuit.py:Circuit.append", "acqdp/circuit/circuit.py:Circuit.tensor_density", "acqdp/circuit/circuit.py:Circuit.measure", "acqdp/circuit/circuit.py:ControlledOperation", "acqdp/circuit/circuit.py:operation_from_kraus"]}
{"id": "C55", "title": "The operators | and * of operations", "statement": "a | b acts as a followed by b: the result is a valid circuit whose action on states and density matrices is that of a and then that of b, the qubits of circuits keeping their names if the left operand is a circuit and being called 0, 1, ... otherwise; if the outputs of a are the inputs of b, its matrix is the product of the matrices. If an output meets an output or an input meets an input, the result has no shape (an error). a * b is the tensor product: the qubits of b come after those of a and every entry is the product of an entry of a and an entry of b. Operands may be gates, states, measurements, channels, controlled operations and circuits nested to any depth.", "quantifier": "all pairs of operations, every number of qubits, every nesting depth, every matrix entry", "why_tests_cant": "a test composes a few fixed gates; the law has to hold for all operands, all wirings and all entries", "anchors": ["acqdp/circuit/circuit.py:Operation.__or__", "acqdp/circuit/circuit.py:Operation.__mul__", "acqdp/circuit/circuit.py:Circuit.append", "acqdp/circuit/circuit.py:copy"]}
{"id": "C56", "title": "Orders of the hypergraph order finder", "statement": "Whatever the partitioner KaHyPar answers (any block numbers in range), whatever valid paths opt_einsum finds and whatever the costs are, an order given by the hypergraph order finder is a valid contraction order of the nodes of the network: it ends in '#', consumes every node and every intermediate exactly once, gives no name twice, and is pairwise. Merging nodes first (simplify) keeps the value of the network, succeeds on every network with known dimensions and no fixed edge, and stops only when no two neighbours can be merged without a tensor of more legs than the larger of them; the order of the merges and that of the rest fit together. The order yielded is the cheapest of the ten queries. Contracting along it gives the Einstein sum.", "quantifier": "all networks, all partitions, all paths, all cost functions, every cutoff, every depth of the recursion", "why_tests_cant": "the partitioner is a randomised external program; a test sees a few partitions of a few networks and not the recursion on parts, renaming and simplification together", "anchors": ["acqdp/tensor_network/kahypar_order_finder.py:KHPOrderFinder.find_order", "acqdp/tensor_network/kahypar_order_finder.py:_simplify", "acqdp/tensor_network/kahypar_order_finder.py:_order_by_params", "acqdp/tensor_network/tensor_network.py:TensorNetwork.simplify", "acqdp/tensor_network/tensor_network.py:TensorNetwork.tanner_graph"]}
{"id": "C57", "title": "Undirected contraction trees keep their cost and their path", "statement": "For at least two operands and a valid path UndirectedContractionTree(eq, path) succeeds; its cost is the cost of the path (2^indices per contraction, doubled if something is summed), and its stem is a heaviest path of the tree, between two operands. After any sequence of switch_branches, merge_branches, unmerge_branches and step_root: the graph is a tree with the operands at the ends and contractions of three neighbours elsewhere; the stem is a path of it; the subscripts stored at each edge and direction are those of the operands beyond; get_path gives a valid path of the operands; and the cost that was updated step by step is the cost of exactly that path. switch_branches and merge_branches succeed everywhere inside the stem, step_root succeeds exactly next to the root at a contraction; switch_branches twice, or merge_branches followed by unmerge_branches with the returned branch, restores tree, stem and cost.", "quantifier": "all operands and index sets, all valid paths, all sequences of the methods, all positions", "why_tests_cant": "the cost is maintained incrementally by local updates; an error shows only after some sequence of moves on some tree", "anchors": ["acqdp/tensor_network/undirected_contraction_tree.py:UndirectedContractionTree.__init__", "acqdp/tensor_network/undirected_contraction_tree.py:UndirectedContractionTree.switch_edges", "acqdp/tensor_network/undirected_contraction_tree.py:UndirectedContractionTree.step_root", "acqdp/tensor_network/undirected_contraction_tree.py:UndirectedContractionTree.detect_stem", "acqdp/tensor_network/undirected_contraction_tree.py:UndirectedContractionTree.get_path", "acqdp/tensor_network/undirected_contraction_tree.py:UndirectedContractionTree.merge_branches", "acqdp/tensor_network/undirected_contraction_tree.py:UndirectedContractionTree.unmerge_branches"]}
{"id": "C58", "title": "Schemes of the slicer", "statement": "Whatever the local optimiser, opt_einsum and the cost model answer, a scheme returned by Slicer._slice for valid pairwise orders of a network is usable: its order is a valid contraction order of the same nodes ending in '#', within the limit 2^max_tw, pairwise, the sliced edges are distinct unfixed edges of tensors of the network, at most max_num_slice of them (no limit for -1), and contracting with the scheme gives the Einstein sum. The only way to fail is that no subscript ends inside the stem, and the search stops. The ranges of subscripts on the stem are those of the tensors along it, and the costs compared are those of the contraction without the sliced subscripts.", "quantifier": "all networks, all valid orders, all numbers of rounds of local optimisation, all paths and costs of the external tools, all thresholds and limits, every order in which sets are read", "why_tests_cant": "the search is randomised and driven by external cost estimates; a test follows a few runs, and the claim is about every scheme that can come out", "anchors": ["acqdp/tensor_network/slicer.py:Slicer._slice", "acqdp/tensor_network/slicer.py:Slicer._biggest_weight_edge"]}
{"id": "C59", "title": "Order patching keeps the result", "statement": "Compiling a scheme with do_patch=True (the order read off the contraction tree, the steps on small tensors done ahead of the slices by commands of their own, the others replaced by those of another valid order) gives a task whose execution returns the Einstein sum of the network, the same array as compiling without patching; the task is one of the network (same sub-tasks, same data, fixed cells).", "quantifier": "all networks, all valid pairwise orders, all slicings, all thresholds, every iteration order of the boundary sets, every sound order search", "why_tests_cant": "which steps are done ahead depends on the threshold and on the sizes of all intermediate tensors, and the boundary of each encapsulated group is listed in the arbitrary order of a set; a test sees one of these", "anchors": ["acqdp/tensor_network/compiler.py:Compiler._generate_template", "acqdp/tensor_network/compiler.py:Compiler._order_patch", "acqdp/tensor_network/compiler.py:Compiler._reorg_order", "acqdp/tensor_network/compiler.py:Compiler._patch_order"]}
{"id": "C60", "title": "The order search of ContractionTree.patch", "statement": "An order returned by ContractionTree.from_order(...).patch() is a valid contraction order of the same tensors ending in '#', with two operands per step, every name given once, and the same result names as before; whatever matching networkx picks, and however the thresholds are set. It fails only in named cases (a chain too short, last branches without indices of their own, the end of the stem merged away); a tree without large steps is never changed. With it as the search, compiling with do_patch=True keeps the Einstein sum.", "quantifier": "all networks, all valid pairwise orders, all matchings, all thresholds and widths, every order in which sets are read", "why_tests_cant": "the merging rounds depend on the matching that networkx happens to return and on the sizes along the stem; tests with tensors of 2^28 entries are not practical", "anchors": ["acqdp/tensor_network/contraction_tree.py:ContractionTree.from_order", "acqdp/tensor_network/contraction_tree.py:ContractionTree.patch", "acqdp/tensor_network/contraction_tree.py:ContractionTree.merge_nodes"]}
{"id": "C61", "title": "The QAOA demo evaluates the mean energy of the QAOA state", "statement": "For every instance (a dictionary of clauses with real arrays) and at least one layer, building the network of a clause from its light cone never raises, every node gets an array with one index of dimension 2 per leg, and the network stands for the mean of that clause in the QAOA state on all variables: gates outside the cone cancel exactly. So query(params) returns the mean energy of the state, a real number between the least and the largest energy; it is never below the value of optimum().", "quantifier": "all instances, all clauses, all numbers of layers >= 1, all real angles, every order in which sets are iterated", "why_tests_cant": "the state has 2^n amplitudes and the cones depend on how clauses overlap; tests compare a few random angles of one small instance", "anchors": ["demo/QAOA/qaoa.py:QAOAOptimizer.lightcone", "demo/QAOA/qaoa.py:QAOAOptimizer.decorate", "demo/QAOA/qaoa.py:QAOAOptimizer.preprocess_clause", "demo/QAOA/qaoa.py:QAOAOptimizer.query", "demo/QAOA/qaoa.py:QAOAOptimizer.energy", "demo/QAOA/qaoa.py:QAOAOptimizer.optimum"]}
{"id": "C62", "title": "contract does not depend on the order finder or the slicer", "statement": "For every network that contract accepts, every order finder ('default', 'oe', 'khp', alone or wrapped in 'sliced' with Slicer or MPSlicer) either returns a scheme with which contract gives the Einstein sum of the network, or makes contract raise; so any two finders give the same array. Completing a network twice changes nothing, so the orders found on the completed network fit it. MPSlicer returns a cheapest one of more than num_suc_candidates candidates.", "quantifier": "all networks, all finders and slicer parameters, all results of opt_einsum, kahypar and of the random choices", "why_tests_cant": "the finders are random and the orders depend on the network; tests compare one finder's result with the default on a few small networks", "anchors": ["acqdp/tensor_network/order_finder.py:get_order_finder", "acqdp/tensor_network/order_finder.py:SlicedOrderFinder.find_order", "acqdp/tensor_network/slicer.py:Slicer.slice", "acqdp/tensor_network/slicer.py:MPSlicer.slice", "acqdp/tensor_network/slicer.py:get_slicer", "acqdp/tensor_network/tensor_network.py:TensorNetwork.find_order"]}
{"id": "C63", "title": "Operations appended without a time step act in the order of appending", "statement": "Appending operations to an empty circuit without time steps and names succeeds exactly when every operation has as many letters as different qubits are given for it, and no operation is lost. The circuit is valid exactly when on every qubit outputs and inputs alternate in the order of appending. Its tensor_pure and tensor_density are the matrices of the operations applied one after the other in that order.", "quantifier": "all lists of operations and qubits, all operations, all entries", "why_tests_cant": "the names (time, qubits) and the times depend on what has been appended before; tests build a few fixed circuits", "anchors": ["acqdp/circuit/circuit.py:Circuit.append", "acqdp/circuit/circuit.py:Circuit.max_time", "acqdp/circuit/circuit.py:Circuit.shape", "acqdp/circuit/converter.py:Converter.convert_pure"]}
{"id": "C64", "title": "GHZState(n) prepares the GHZ state", "statement": "For every n >= 1, GHZState(n) does not raise and gives a valid pure circuit without inputs on the qubits 0..n-1, whose tensor_pure has the entry sqrt(1/2) at the two strings of equal bits and 0 at every other string. The number printed by the example, (add_noise(a, noise) | a.adjoint()).tensor_density.contract(), is the sum of the four corners of the noisy density matrix, halved, and 1 without noise.", "quantifier": "all n, all bit strings", "why_tests_cant": "the state has 2^n amplitudes; the example is run for n = 10 only and compares one number", "anchors": ["examples/GHZ.py:GHZState", "acqdp/circuit/circuit.py:Circuit.append", "acqdp/circuit/circuit.py:HGate", "acqdp/circuit/circuit.py:CNOTGate", "acqdp/circuit/circuit.py:ZeroState", "acqdp/circuit/circuit.py:add_noise", "acqdp/circuit/circuit.py:Operation.__or__"]}
{"id": "C65", "title": "(b | ~a).tensor_density is the overlap of the two states", "statement": "For every circuit a of pure operations and every circuit b, both without inputs and with the same outputs, b | a.adjoint() is a valid circuit without inputs and outputs, and its tensor_density is the number <psi|rho|psi>, where psi is tensor_pure of a and rho is tensor_density of b.", "quantifier": "all circuits, all operations in them, all entries", "why_tests_cant": "adjoint, | and the density conversion are tested separately on small circuits; the overlap is a double sum over 2^n strings", "anchors": ["acqdp/circuit/circuit.py:Operation.__or__", "acqdp/circuit/circuit.py:Circuit.adjoint", "acqdp/circuit/converter.py:Converter.convert_density"]}
{"id": "C66", "title": "The noise of the surface code demo is made of quantum channels", "statement": "IdleGate(duration, params, ts) preserves the trace for all arguments. For nonnegative durations and rates and ts=None it is completely positive, idling for 0 does nothing, and idling for a and then for b is idling for a + b (also with ts for adjacent windows). The factor lamda is exp of minus the integral of the photon dephasing rate over the window. With ts it is completely positive exactly if p_phi_ <= 1. The noise of NoisyHGate applies X, Y, Z with probabilities p_axis/4, p_plane/2 - p_axis/4, p_axis/4; NDCompMeas is a measurement whose outcome is forgotten, or weighed if PH is replaced; NoisyCZ is unitary for all angles and CZ without error.", "quantifier": "all durations, parameters, windows, angles (real numbers)", "why_tests_cant": "there are no tests of the demo; complete positivity and the semigroup law are statements about all real parameters", "anchors": ["demo/QEC/noise_model.py:IdleGate", "demo/QEC/noise_model.py:IdleGate.lamda", "demo/QEC/noise_model.py:NoisyHGate", "demo/QEC/noise_model.py:add_CZ_rotations", "demo/QEC/noise_model.py:NDCompMeas"]}
{"id": "C67", "title": "The stabilizer rounds of the surface code demo measure the stabilizers", "statement": "On every set of grid coordinates, the four time slots of x_stab_meas (z_stab_meas) apply one CZ to each pair of an X (Z) ancilla and an adjacent data qubit and to no other pair; within a slot no qubit is used twice, and the break in add_CZ_gates never skips a pair. For ancillas in state 0 the round appended by x_stab_meas (z_stab_meas) with given outcomes acts as the product over the ancillas of the projectors on the eigenspace of the product of X (Z) on the neighbours given by the outcome, and leaves the ancillas in state 0; tensor_pure of the circuit has these entries.", "quantifier": "all lists of distinct coordinates, all numberings of qubits, all outcomes, all states", "why_tests_cant": "there are no tests of the demo; the claim is about a state of 2^17 amplitudes and all patches", "anchors": ["demo/QEC/surface_code.py:add_CZ_gates", "demo/QEC/surface_code.py:x_stab_meas", "demo/QEC/surface_code.py:z_stab_meas"]}
{"id": "C68", "title": "initial_state is maximally entangled with the surface code and final_measurement corrects every syndrome", "statement": "tensor_pure of initial_state(coord) is (|0> x code0 + |1> x code1)/sqrt 2 with coord as first factor. code0 and code1 are not zero, both are fixed by every X and every Z stabilizer, a logical Z is +1 on code0 and -1 on code1, so they are orthogonal. On a state with syndrome s, the branch j of the ancillas in the corrections of final_measurement is fixed by all stabilizers if j = s and annihilated by the projector of an ancilla at which j and s differ. The code has distance 3: an error of X on at most two and Z on at most two data qubits that keeps a code state in the code does not change it, and three qubits suffice for one that does.", "quantifier": "all qubits coord outside the code, all numberings of qubits, all states with a syndrome, all syndromes, all branches", "why_tests_cant": "there are no tests of the demo; the statement is about all states and syndromes of a code on 17 qubits", "anchors": ["demo/QEC/surface_code.py:initial_state", "demo/QEC/surface_code.py:final_measurement", "demo/QEC/surface_code.py:qubit_coords"]}
{"id": "C69", "title": "add_idle_noise fills exactly the gaps between operations", "statement": "add_idle_noise never raises. On every wire the appended idle gates are, in order, the gaps of positive length between consecutive operations (with start and end as further operations), except after a Measurement and before a State: their duration is the length of the gap and their time step its middle. So no operation on the wire has the same time step, and from a preparation to the next measurement the durations add up to the elapsed time. On a stretch without Hadamard gates, preparations and measurements all idle noise together is the channel of one idle gate over the stretch. The photon windows have the length of the gate and begin and count from times that are not negative.", "quantifier": "all circuits (times in any ordered field), all start and end", "why_tests_cant": "there are no tests of the demo; the claim is about all sequences of operations on a wire", "anchors": ["demo/QEC/noise_model.py:add_idle_noise"]}
{"id": "C70", "title": "The rounds of the noisy surface code are the noiseless rounds, in order, and can be simulated", "statement": "On the lattice and with parameters add_noisy_surface_code never raises. Cross talk aside, one call appends the gates of the noiseless X round followed by those of the noiseless Z round; the cross talk is one gate on each pair of a Z ancilla and a neighbour between the halves and one on each pair of an X ancilla and a neighbour at the end. If the durations are positive and the Z measurement ends before the next round, all operations lie after the given time and not after the returned time, and on each qubit the operations other than cross talk happen at strictly increasing times in the order of the calls, over any number of rounds. No two calls of append use the same name, so none overwrites another. The photon windows add_idle_noise makes for the circuit are in order. The circuit has a shape, i.e. no qubit is used twice at one time.", "quantifier": "all sets of coordinates on the lattice, all durations with these inequalities, all numbers of rounds, all numberings of the qubits", "why_tests_cant": "there are no tests of the demo; the claim is about all durations and numbers of rounds", "anchors": ["demo/QEC/noise_model.py:add_noisy_surface_code", "demo/QEC/noise_model.py:add_CZ_rotations", "demo/QEC/surface_code.py:surface_code_tensor_network"]}
{"id": "C71", "title": "The readout of the surface code demo opens or fixes the measurement outcomes", "statement": "In the expanded density network of the demo's circuit, surface_code_tensor_network removes exactly the nodes 'PH' of the measurements and opens one edge for each, in order, so that the network before is the sum of the network after over all outcomes, weighed with the entries of the removed nodes (1). surface_code_tensor_network_with_syndrome puts the row of the readout matrix for the given syndrome at each of these nodes.", "quantifier": "all circuits made with append and |, all consistent networks, all entries of the tensors, all syndromes, all values of the open indices", "why_tests_cant": "there are no tests of the demo; the network has far too many outcomes to be summed", "anchors": ["demo/QEC/surface_code.py:surface_code_tensor_network", "demo/QEC/surface_code.py:surface_code_tensor_network_with_syndrome", "acqdp/tensor_network/tensor_network.py:TensorNetwork.remove_node", "acqdp/tensor_network/tensor_network.py:TensorNetwork.add_attribute_to_names"]}
{"id": "C72", "title": "Flipping branches of a contraction tree keeps the contraction and its memory", "statement": "ContractionTree.flip_branch changes the order of contraction only: the flipped tree has the same tensors and names, its full_order is a valid pairwise order, every intermediate result has exactly the indices that occur outside of it, and contracting along it gives the same tensor as before, for a tree read off an order the tensor of the network. The largest intermediate result (total_cost.t) does not grow, and the total cost does not grow either. If False is returned, nothing was changed and no single exchange would make an intermediate result smaller.", "quantifier": "all trees with two children per inner node, all stem sizes, all iteration orders of Python sets, all string comparisons, all tensors over all commutative semirings, all networks and valid pairwise orders", "why_tests_cant": "flip_branch has no tests; it acts only on results with 23 or more indices, which is too large for a test that contracts", "anchors": ["acqdp/tensor_network/contraction_tree.py:ContractionTree.flip_branch", "acqdp/tensor_network/contraction_tree.py:ContractionTree.total_cost", "acqdp/tensor_network/contraction_tree.py:ContractionTree.step_cost", "acqdp/tensor_network/contraction_tree.py:ContractionTree.from_order"]}
{"id": "C73", "title": "The circuit loader GRCS loads a file of gates as the circuit that applies them layer by layer", "statement": "GRCS(f, in_state) of a file with n qubits, layers from 0 on, distinct targets below n and no qubit used twice in a layer does not raise. The circuit has no inputs and the qubits 0 to n-1 as outputs, and tensor_pure has the amplitudes of the basis state in_state (first qubit most significant) after all gates of the file, layer by layer, in any order within a layer. The gates have the matrices of the literature: Hadamard, square roots of X, Y and (X+Y)/sqrt 2, T, CZ, iSWAP, phase rotation and fSim; they are unitary. A line that is not read as a gate is not silently dropped or read as another gate, and operations declared self-adjoint are.", "quantifier": "all files, all numbers of qubits, all layers, all angles, all basis states, all contraction methods that evaluate correctly", "why_tests_cant": "there are no tests of the example; the statement is about all circuits and all amplitudes", "anchors": ["examples/circuit_simulation.py:GRCS", "examples/circuit_simulation.py:ISWAP_CZ", "acqdp/circuit/circuit.py:SWAPGate", "acqdp/circuit/circuit.py:Operation.__or__"]}
{"id": "C74", "title": "The decoder of the surface code demo is a maximum likelihood decoder", "statement": "From the tensor of the channels of the logical qubit, one for each list of measurement outcomes, computeErrorRate returns 512 times the Pauli transfer matrix (with Y replaced by -Y) of: the first 16 outcomes are reported with readout errors, and for each report one Pauli matrix is applied. The chosen Pauli matrix keeps the identity at least as well as any other function of the reports does; if the error given the report is a random Pauli matrix, it is a most likely one, the first in the order I, X, Y, Z. Without readout error, errors that are known from the outcomes are all corrected.", "quantifier": "all tensors (all channels), all numbers of outcomes, all readout errors, all other decoders", "why_tests_cant": "there are no tests of the demo, and the array has 2^28 entries; that no other decoder is better is a statement about all functions of the outcomes", "anchors": ["demo/QEC/decoder.py:computeErrorRate"]}
{"id": "C75", "title": "The einsums of the steps of a contraction order compute the network", "statement": "For a network with known dimensions, without fixed edges and with every open edge on a node, and a contraction order that ends with its only step named '#', OrderResolver.order_to_subscripts does not raise and returns one einsum (letters and shapes) per step; carrying these out one after the other on the tensors of the network gives the value of the network, whatever the iteration order of the sets of boundary edges is.", "quantifier": "all networks (hyperedges, repeated legs, nested tensors), all valid orders with any number of operands per step, all entries of the tensors, all iteration orders of sets", "why_tests_cant": "the letters of each step are positions in a table of its own and depend on hash orders; tests see one order of few networks, and never the subscripts", "anchors": ["acqdp/tensor_network/local_optimizer.py:OrderResolver.order_to_subscripts", "acqdp/tensor_network/tensor_network.py:TensorNetwork.subscripts", "acqdp/tensor_network/tensor_network.py:TensorNetwork.encapsulate"]}
{"id": "C76", "title": "== compares the values of tensor objects and normalize divides by the Frobenius norm", "statement": "a == b does not depend on how a and b are built: for objects of one shape it is True exactly if each entry of contract(a) is within 1e-8 + 1e-5 |entry of b| of that of contract(b), objects with the same entries are equal, objects of different shapes are not. normalize(t) of an object that is not zero has the entries of t divided by its Frobenius norm, and norm 1. == is no equivalence relation, and it does not tell apart states of many qubits, whose amplitudes are all below the tolerance.", "quantifier": "all tensors, networks, sums and views of them, nested to any depth, over the complex numbers, all sound back ends", "why_tests_cant": "tests compare a few small objects; the statement is about all nestings, and the failures need numbers near the tolerance or 56 qubits", "anchors": ["acqdp/tensor_network/tensor_valued.py:TensorValued.__eq__", "acqdp/tensor_network/tensor_valued.py:normalize", "acqdp/tensor_network/tensor_valued.py:TensorValued.norm_squared", "acqdp/tensor_network/tensor.py:Tensor.norm_squared"]}
{"id": "C77", "title": "final_measurement as a circuit of mixed operations", "statement": "tensor_density of the circuit that final_measurement appends is, for every pair of input and output basis states: zero unless row and column agree on the eight ancillas before and after; otherwise the sum over all outcomes of the stabilizers and over all corrections of the operator that projects the data on the outcomes of the X stabilizers, applies the Z corrections, projects on the outcomes of the Z stabilizers and applies the X corrections. After a projection on the code exactly the branches remain whose corrections are those of their outcomes, and states of the code are left as they are by the branch without syndrome.", "quantifier": "all entries of the density tensor, all inputs, all sound contraction back ends, all numberings of the coordinates", "why_tests_cant": "there are no tests of the demo; the density tensor has 4^34 entries and no test can list the branches", "anchors": ["demo/QEC/surface_code.py:final_measurement", "demo/QEC/surface_code.py:x_stab_meas", "demo/QEC/surface_code.py:z_stab_meas", "demo/QEC/surface_code.py:PlaceHolder", "demo/QEC/surface_code.py:TraceState"]}
{"id": "C78", "title": "is_ready", "statement": "is_ready of a tensor, network, sum or view never raises and is True exactly when the object stands for a definite array: every array at every level of nesting is given, the tensor at every node has exactly the dimensions of the edges on its legs, and the shapes of the terms of every sum agree. An object that is ready, in whose networks every edge is on a leg and whose sums are not empty, has a definite shape, and contract returns its array.", "quantifier": "all tensor-valued objects made by the editing calls, nested to any depth, over any commutative semiring; all sound and reliable contraction back ends", "why_tests_cant": "the tests never read is_ready; the claim quantifies over all networks, all nestings and all back ends", "anchors": ["acqdp/tensor_network/tensor.py:Tensor.is_ready", "acqdp/tensor_network/tensor_network.py:TensorNetwork.is_ready", "acqdp/tensor_network/tensor_sum.py:TensorSum.is_ready", "acqdp/tensor_network/tensor_sum.py:TensorSum.is_valid", "acqdp/tensor_network/tensor_view.py:TensorView.is_ready"]}
{"id": "C79", "title": "print_order describes the steps of a contraction", "statement": "print_order never raises on a tree of from_order: it has one line per pairwise step, in the order in which the steps are carried out, each with the names and indices of its own tensors. The numbers a x c x d, c x b x d count the indices of the two tensors, split into those of one tensor, those summed and those kept; the number in front is that of all indices, and 2 to these numbers, added up, are the multiplications total_cost counts. The numbers a x b x d printed for the result count its indices.", "quantifier": "all trees with two children per inner node, all networks and valid pairwise orders, all iteration orders of Python sets", "why_tests_cant": "print_order and full_subscripts have no tests, and the claim is about all trees", "anchors": ["acqdp/tensor_network/local_optimizer.py:LocalOptimizer.print_order", "acqdp/tensor_network/local_optimizer.py:LocalOptimizer.order_to_subscripts_tree", "acqdp/tensor_network/contraction_tree.py:ContractionTree.full_subscripts"]}
{"id": "C80", "title": "The choice of the path search and the cost of a resolved order", "statement": "subscript_to_path returns a path that opt_einsum found for the step, with the cost of that path. The default search is kept for at most two operands, for cost at most thres and for too many operands; otherwise brute force or dynamic programming is used, up to optimal and dp operands. If these never do worse than the default search, neither does the result; if brute force finds a cheapest path, a step of at most optimal operands gets a cheapest path or one that costs at most thres. order_to_contraction_scheme resolves the order along these paths, and its cost is the sum of their costs, its memory their largest.", "quantifier": "all answers of opt_einsum, all settings of the resolver, all orders and subscripts", "why_tests_cant": "second searches need steps that cost more than 1e8, and the claim is about all answers of opt_einsum", "anchors": ["acqdp/tensor_network/local_optimizer.py:OrderResolver.subscript_to_path", "acqdp/tensor_network/local_optimizer.py:OrderResolver.order_to_contraction_scheme"]}

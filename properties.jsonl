{"id": "C01", "title": "Promotion acts as the operator on its wires and as identity elsewhere", "statement": "For distinct in-range wires and a 2^k x 2^k matrix, get_full_operator returns the 2^n x 2^n matrix whose entry (r,c) is op[r restricted to wires, c restricted to wires] if r and c agree on every other qubit, and 0 otherwise (qubit 0 is the most significant bit).", "quantifier": "every n, every k, every list of distinct wires below n in any order, every complex matrix", "why_tests_cant": "the einsum label bookkeeping must be right for all wire orders and all system sizes; tests sample a few", "anchors": ["oranssi/circuit_tools.py:get_full_operator"]}
{"id": "C02", "title": "Promotion preserves the matrix algebra", "statement": "get_full_operator on fixed wires maps identity to identity, products to products, sums to sums, scalar multiples to scalar multiples and adjoints to adjoints; hence unitary gates become unitary and Hermitian observables become Hermitian.", "quantifier": "every n, k, wires, matrices", "why_tests_cant": "an equality over all matrices and sizes", "anchors": ["oranssi/circuit_tools.py:get_full_operator"]}
{"id": "C03", "title": "Operators promoted from disjoint wires commute", "statement": "If two wire tuples share no qubit, the promoted operators commute.", "quantifier": "every n, every pair of disjoint wire tuples, every pair of matrices", "why_tests_cant": "quantifies over all matrices and wire tuples", "anchors": ["oranssi/circuit_tools.py:get_full_operator"]}
{"id": "C04", "title": "Promotion agrees with Kronecker products and wire order", "statement": "Promoting np.kron(A,B) on wires ws+vs equals promoting A on ws times promoting B on vs; promoting on wires 0..n-1 in order returns the matrix itself; hence promoting a word of single-qubit matrices gives the tensor product over all n qubits.", "quantifier": "every n, wires, matrices", "why_tests_cant": "all sizes and all wire orders", "anchors": ["oranssi/circuit_tools.py:get_full_operator", "oranssi/utils.py:get_su_4_operators", "oranssi/utils.py:get_su_n_operators"]}
{"id": "C05", "title": "Promotion rejects every invalid wire tuple", "statement": "get_full_operator raises for every wire tuple that is empty, out of range, of the wrong length for the operator, negative, or repeated, and for every operator whose shape is not 2^k x 2^k.", "quantifier": "every operator shape and every tuple of integers", "why_tests_cant": "invalid inputs form an infinite set; some are silently accepted", "anchors": ["oranssi/circuit_tools.py:get_full_operator"]}
{"id": "C06", "title": "Compiled circuit unitary reproduces gate-by-gate evolution", "statement": "The unitary that the optimizers build from the list of gates and wires, applied to |0...0>, equals applying each gate in order to the state vector on its own wires; it is unitary when the gates are.", "quantifier": "every gate sequence of every length, every number of qubits", "why_tests_cant": "gate sequences are unbounded", "anchors": ["oranssi/optimizers.py:exact_lie_optimizer", "oranssi/optimizers.py:approximate_lie_optimizer", "oranssi/circuit_tools.py:get_ops_from_qnode", "oranssi/circuit_tools.py:get_full_operator"]}
{"id": "C07", "title": "Parameter-shift commutator", "statement": "With gate(t)=exp(-i t/2 O) for an observable O with O^2=1 and O Hermitian, param_shift_comm(rho, gate) equals i*(rho O - O rho) (the docstring's [rho,O] without the factor i is not what is returned), and is Hermitian and traceless for Hermitian rho.", "quantifier": "every dimension, every rho, every involutory Hermitian O", "why_tests_cant": "an identity between matrix exponentials for all matrices", "anchors": ["oranssi/circuit_tools.py:param_shift_comm"]}
{"id": "C08", "title": "Hamiltonian matrix is the weighted sum of promoted observables", "statement": "get_hamiltonian_matrix returns the sum of coeff_i times the promoted observable_i, defaults the coefficients to 1, is Hermitian for Hermitian observables with real coefficients, is additive over concatenation of observable lists, ignores surplus coefficients and raises IndexError when there are too few.", "quantifier": "every list of observables and coefficients", "why_tests_cant": "lists are unbounded", "anchors": ["oranssi/circuit_tools.py:get_hamiltonian_matrix"]}
{"id": "C09", "title": "Pauli words enumerate in order with matching matrices", "statement": "get_su_n_operators(2^N, identity) lists exactly the words of length N over IXYZ (or XYZ), each once and in lexicographic order, with the i-th matrix the Kronecker product of the letters of the i-th name; there are 4^N (3^N) of them; get_su_2_operators and get_su_4_operators are the cases N=1 and N=2.", "quantifier": "every N, both identity flags", "why_tests_cant": "every N", "anchors": ["oranssi/utils.py:get_su_2_operators", "oranssi/utils.py:get_su_4_operators", "oranssi/utils.py:get_su_n_operators"]}
{"id": "C10", "title": "Returned Pauli operators form an orthogonal Hermitian unitary basis", "statement": "Every returned operator is Hermitian and squares to the identity, distinct ones are trace-orthogonal, every non-identity one is traceless, and with identity=True every 2^N x 2^N matrix is the combination sum_P tr(P M)/2^N P.", "quantifier": "every N and every matrix M", "why_tests_cant": "every N and every complex matrix", "anchors": ["oranssi/utils.py:get_su_n_operators"]}
{"id": "C11", "title": "operator_2_norm is the unitarily invariant Frobenius norm", "statement": "operator_2_norm(R) is the square root of the sum of squared moduli of the entries: non-negative, zero only for R=0, absolutely homogeneous, subadditive, and unchanged when R is multiplied by a unitary on either side.", "quantifier": "every matrix and every unitary of every size", "why_tests_cant": "real-valued inequality over all matrices", "anchors": ["oranssi/utils.py:operator_2_norm"]}
{"id": "C12", "title": "SU(N) directions dictionary", "statement": "get_all_su_n_directions has exactly the 4^n Pauli words as keys, and the value at word P is Im<phi|[P,H]|phi>/2^n with phi=U|0..0> and H the sum of the observables; the identity word's value is 0 and [P,H]'s expectation is purely imaginary so nothing is lost by taking the imaginary part.", "quantifier": "every n, unitary and list of Hermitian observables", "why_tests_cant": "all states and Hamiltonians", "anchors": ["oranssi/circuit_tools.py:get_all_su_n_directions"]}
{"id": "C13", "title": "All directions vanish exactly at eigenstates", "statement": "For a unitary U, every value of get_all_su_n_directions is zero if and only if U|0..0> is an eigenvector of the total observable.", "quantifier": "every n, unitary, list of Hermitian observables", "why_tests_cant": "an equivalence over a continuum of states", "anchors": ["oranssi/circuit_tools.py:get_all_su_n_directions", "oranssi/opt_tools.py:LieLayer.get_lie_algebra_directions"]}
{"id": "C14", "title": "Single-site Pauli multiplication is matrix multiplication", "statement": "The product of two Pauli objects on one site denotes the product of the 2x2 matrices they denote (with coefficients), and multiplying Paulis on different sites raises.", "quantifier": "all sites, all 16 pairs of kinds, all coefficients", "why_tests_cant": "coefficients range over a ring", "anchors": ["oranssi/pauli.py:Pauli.__mul__", "oranssi/pauli.py:levicevita"]}
{"id": "C15", "title": "PauliMonomial multiplication is operator multiplication", "statement": "The product of two monomials denotes the operator product on every large enough register, its sites are the union of the factors' sites in increasing order without repetition, and its coefficient is consistent; multiplication is associative as operators. The constructor accepts exactly the lists of Paulis on distinct sites and sorts them.", "quantifier": "every pair of monomials of any length, sites and coefficients", "why_tests_cant": "unbounded length and sites", "anchors": ["oranssi/pauli.py:PauliMonomial.__mul__", "oranssi/pauli.py:PauliMonomial.__init__"]}
{"id": "C16", "title": "commutes_with decides operator commutation", "statement": "A.commutes_with(B) is True exactly when the operators denoted by A and B commute.", "quantifier": "every pair of monomials", "why_tests_cant": "equivalence over unbounded monomials", "anchors": ["oranssi/pauli.py:PauliMonomial.commutes_with"]}
{"id": "C17", "title": "commutator denotes AB-BA", "statement": "A.commutator(B), read through its coeff and its Pauli word, denotes AB-BA.", "quantifier": "every pair of freshly built monomials", "why_tests_cant": "unbounded monomials", "anchors": ["oranssi/pauli.py:PauliMonomial.commutator"]}
{"id": "C18", "title": "Commutators can be nested", "statement": "Feeding the result of commutator into another commutator or product denotes the nested commutator or product.", "quantifier": "every triple of monomials", "why_tests_cant": "needs every triple; the code breaks for most", "anchors": ["oranssi/pauli.py:PauliMonomial.commutator", "oranssi/pauli.py:PauliMonomial.__mul__"]}
{"id": "C19", "title": "Equality and hash are consistent", "statement": "Objects that compare equal have equal hashes, for Pauli and for PauliMonomial; equality of monomials is reflexive, symmetric and transitive on monomials of one length.", "quantifier": "all pairs of objects", "why_tests_cant": "hash contract quantifies over all pairs", "anchors": ["oranssi/pauli.py:Pauli.__eq__", "oranssi/pauli.py:Pauli.__hash__", "oranssi/pauli.py:PauliMonomial.__eq__", "oranssi/pauli.py:PauliMonomial.__hash__"]}
{"id": "C20", "title": "Ordering of monomials is a strict order", "statement": "PauliMonomial.__lt__ is irreflexive, asymmetric and transitive, so that sorting an array of monomials groups equal ones.", "quantifier": "all pairs and triples of monomials", "why_tests_cant": "order axioms quantify over all triples", "anchors": ["oranssi/pauli.py:PauliMonomial.__lt__"]}
{"id": "C21", "title": "PauliSum addition", "statement": "a+b denotes the sum of the operators denoted by a and b up to dropped terms of modulus at most 1e-8, and leaves a and b unchanged.", "quantifier": "all heaps and all aliasing between the operands' monomials", "why_tests_cant": "aliasing patterns and sums are unbounded", "anchors": ["oranssi/pauli.py:PauliSum.__add__", "oranssi/pauli.py:PauliSum.simplify"]}
{"id": "C22", "title": "PauliSum subtraction", "statement": "a-b denotes the difference of the operators denoted by a and b up to dropped terms of modulus at most 1e-8, and leaves a and b unchanged.", "quantifier": "all heaps and all aliasing between the operands' monomials", "why_tests_cant": "aliasing patterns and sums are unbounded", "anchors": ["oranssi/pauli.py:PauliSum.__sub__", "oranssi/pauli.py:PauliSum.scalar_mul"]}
{"id": "C23", "title": "PauliSum multiplication", "statement": "a*b denotes the product of the operators denoted by a and b up to dropped terms, for all PauliSums.", "quantifier": "all pairs of PauliSums, including results of earlier sums and scalar multiplications", "why_tests_cant": "histories of operations are unbounded", "anchors": ["oranssi/pauli.py:PauliSum.__mul__"]}
{"id": "C24", "title": "PauliSum simplification", "statement": "Constructing a PauliSum never fails for monomials of one length, keeps the denoted operator up to dropped terms of modulus at most 1e-8, and leaves at most one term per Pauli word among purely real-coefficient terms.", "quantifier": "all lists of monomials, all set iteration orders", "why_tests_cant": "set iteration order is not controllable by tests; lists are unbounded", "anchors": ["oranssi/pauli.py:PauliSum.simplify", "oranssi/pauli.py:PauliSum.__init__"]}
{"id": "C25", "title": "Conjugation is the adjoint", "statement": "After m.conj() the object m denotes the adjoint of what it denoted before, and conjugating twice restores it.", "quantifier": "all Paulis and monomials", "why_tests_cant": "all coefficients", "anchors": ["oranssi/pauli.py:Pauli.conj", "oranssi/pauli.py:PauliMonomial.conj"]}
{"id": "C26", "title": "to_oranssi and monomial keys round-trip", "statement": "Building a monomial from an algebra key and converting it back with to_oranssi returns the same key; to_oranssi of any monomial drops exactly the identity sites and keeps the operator's non-identity letters in site order.", "quantifier": "every key and monomial", "why_tests_cant": "unbounded keys", "anchors": ["oranssi/pauli.py:PauliMonomial.to_oranssi", "oranssi/opt_tools.py:ZassenhausLayer.__call__"]}
{"id": "C27", "title": "Algebra dictionaries are complete and correct", "statement": "After get_all_directions_and_qubits, full_paulis of AlgebraSU2/SU4/SU8 has exactly one key per direction and increasing qubit tuple of that length (3n, 9*C(n,2) and 27*C(n,3) keys, plus the optional lower ones), and each value is the tensor-product Pauli operator on those qubits, Hermitian, unitary and traceless; repeating the call changes nothing.", "quantifier": "every nqubits and flag combination", "why_tests_cant": "all system sizes", "anchors": ["oranssi/opt_tools.py:AlgebraSU2", "oranssi/opt_tools.py:AlgebraSU4", "oranssi/opt_tools.py:AlgebraSU8"]}
{"id": "C28", "title": "Lie layers keep the circuit unitary", "statement": "If the circuit matrix passed to LocalLieAlgebraLayer or CustomDirectionLieAlgebraLayer is unitary, so is the returned matrix, for every eta, every option and every Hermitian observable.", "quantifier": "every n, circuit unitary, list of observables, direction subset, trotterize flag", "why_tests_cant": "matrix exponentials over a continuum of inputs", "anchors": ["oranssi/opt_tools.py:LocalLieAlgebraLayer.__call__", "oranssi/opt_tools.py:CustomDirectionLieAlgebraLayer.__call__"]}
{"id": "C29", "title": "Layers are the identity where there is nothing to do", "statement": "A Local or Custom layer returns its input unchanged when eta=0 and when U|0..0> is an eigenvector of every observable.", "quantifier": "every layer, unitary, observables", "why_tests_cant": "continuum of inputs", "anchors": ["oranssi/opt_tools.py:LocalLieAlgebraLayer.__call__", "oranssi/opt_tools.py:CustomDirectionLieAlgebraLayer.__call__"]}
{"id": "C30", "title": "unitary_error_check projects non-unitary updates", "statement": "With unitary_error_check=True, an update matrix that is not unitary is replaced by its projection onto the unitary group and a unitary one is left alone.", "quantifier": "every update matrix", "why_tests_cant": "the branch condition must hold for all matrices", "anchors": ["oranssi/opt_tools.py:LieLayer._is_unitary", "oranssi/opt_tools.py:LieLayer._project_onto_unitary", "oranssi/opt_tools.py:LocalLieAlgebraLayer.__call__"]}
{"id": "C31", "title": "Direction filtering of the local layer", "statement": "LocalLieAlgebraLayer with directions=D uses exactly the directions of D, each once, in the canonical order, with the matching matrices, whatever the order or repetition in D, and raises AssertionError iff some element of D is not a valid direction of that locality.", "quantifier": "every list of strings D, both localities", "why_tests_cant": "all lists", "anchors": ["oranssi/opt_tools.py:LocalLieAlgebraLayer.__init__"]}
{"id": "C32", "title": "The stride option selects the SU(4) pairing", "statement": "LocalLieAlgebraLayer's documented stride option (start on qubit 0 or 1) influences which pairs of qubits are updated.", "quantifier": "every locality-2 layer", "why_tests_cant": "needs all inputs to show two options are indistinguishable", "anchors": ["oranssi/opt_tools.py:LocalLieAlgebraLayer"]}
{"id": "C33", "title": "CustomDirectionLieAlgebraLayer accepts directions=None", "statement": "CustomDirectionLieAlgebraLayer with directions=None performs an optimization step over all directions.", "quantifier": "every device, observables, unitary", "why_tests_cant": "quantifies over all inputs", "anchors": ["oranssi/opt_tools.py:CustomDirectionLieAlgebraLayer.__init__", "oranssi/opt_tools.py:CustomDirectionLieAlgebraLayer.__call__"]}
{"id": "C34", "title": "StochasticLieAlgebraLayer performs a step", "statement": "Calling a StochasticLieAlgebraLayer returns an updated unitary.", "quantifier": "every input", "why_tests_cant": "quantifies over all inputs", "anchors": ["oranssi/opt_tools.py:StochasticLieAlgebraLayer.__call__", "oranssi/opt_tools.py:AlgebraSU4.get_random_direction_and_qubits"]}
{"id": "C35", "title": "SquaredLieAlgebraLayer picks a steepest direction and never repeats it immediately", "statement": "In every history of calls with commute=False, each call selects a direction whose absolute gradient is maximal among all directions other than the one selected by the previous call, and two consecutive calls never select the same direction.", "quantifier": "every history of calls", "why_tests_cant": "histories are unbounded", "anchors": ["oranssi/opt_tools.py:SquaredLieAlgebraLayer.__call__"]}
{"id": "C36", "title": "SU8_AlgebraLayer picks a steepest direction", "statement": "Each call selects, among all SU(2), SU(4), SU(8) directions enabled by the flags, one with maximal absolute gradient, the earliest in dictionary order among ties.", "quantifier": "every state, observables, flags", "why_tests_cant": "continuum of states", "anchors": ["oranssi/opt_tools.py:SU8_AlgebraLayer.__call__"]}
{"id": "C37", "title": "rotosolve minimises the cost along a single-qubit direction", "statement": "For a Hermitian involutory direction and a direction length of 1, the returned unitary's cost is at most the cost at exp(-i t P/2) U for every real t; in particular the cost never increases.", "quantifier": "every Hamiltonian, unitary, direction, angle", "why_tests_cant": "global optimality over all real angles", "anchors": ["oranssi/opt_tools.py:rotosolve"]}
{"id": "C38", "title": "rotosolve never increases the cost", "statement": "The unitary returned by rotosolve has cost at most that of the input, for directions of length 2 and 3 as used by the SU(4) and SU(8) layers.", "quantifier": "every Hamiltonian, unitary, direction of length at most 3", "why_tests_cant": "inequality over a continuum", "anchors": ["oranssi/opt_tools.py:rotosolve", "oranssi/opt_tools.py:SquaredLieAlgebraLayer.__call__", "oranssi/opt_tools.py:SU8_AlgebraLayer.__call__"]}
{"id": "C39", "title": "AdaptVQELayer layer selection", "statement": "For n>=2 the gradient bookkeeping never misses a dictionary key, no direction is selected twice in a row, and each appended layer maximises the summed gradient over the allowed (direction, parity) layers.", "quantifier": "every n>=2 and every history of calls", "why_tests_cant": "histories are unbounded", "anchors": ["oranssi/opt_tools.py:AdaptVQELayer.__call__"]}
{"id": "C40", "title": "AdaptVQELayer continues from the given circuit", "statement": "The unitary returned by an AdaptVQELayer call extends the circuit unitary it was given.", "quantifier": "every circuit and history", "why_tests_cant": "quantifies over all circuits", "anchors": ["oranssi/opt_tools.py:AdaptVQELayer.__call__"]}
{"id": "C41", "title": "ZassenhausLayer phase schedule", "statement": "Over any run, the phase sequence is periodic: ratio[0] consecutive su4 steps followed by ratio[1] consecutive su8 steps (a ratio below 1 acts as 1), and the value reported for a step with return_zassenhaus is the phase actually executed in that step.", "quantifier": "every ratio and every run length", "why_tests_cant": "unbounded runs", "anchors": ["oranssi/opt_tools.py:ZassenhausLayer.__call__", "oranssi/optimizers.py:approximate_lie_optimizer"]}
{"id": "C42", "title": "ZassenhausLayer SU(8) candidates", "statement": "For every current pair direction and every pair direction sharing exactly one qubit, the commutator key is either skipped (same letter on the shared qubit) or a valid SU(8) dictionary key whose operator times i*sign*... equals the operator commutator, with commutator coefficient +-2i, so no lookup fails and no sign is zero.", "quantifier": "every n and every pair of directions", "why_tests_cant": "all n and pairs", "anchors": ["oranssi/opt_tools.py:ZassenhausLayer.__call__", "oranssi/pauli.py:PauliMonomial.commutator"]}
{"id": "C43", "title": "ZassenhausLayer always finds a candidate", "statement": "A ZassenhausLayer call in the su8 phase never fails.", "quantifier": "every state", "why_tests_cant": "failing states form a continuum", "anchors": ["oranssi/opt_tools.py:ZassenhausLayer.__call__"]}
{"id": "C44", "title": "exact_lie_optimizer trace", "statement": "The returned cost list starts with the initial cost, has one more entry than steps executed, at most nsteps+1, and entry k is the cost of the circuit unitary after k steps; the state list (if requested) has the same length.", "quantifier": "every nsteps, tolerance, circuit, observables", "why_tests_cant": "all run lengths", "anchors": ["oranssi/optimizers.py:exact_lie_optimizer"]}
{"id": "C45", "title": "exact_lie_optimizer stops exactly on the first flat step", "statement": "Without perturbation the run stops after the first step k>=4 whose cost is within tol + 1e-5*|previous cost| of the previous cost, and otherwise runs all nsteps steps; so at least min(nsteps,5) steps are executed.", "quantifier": "every cost sequence", "why_tests_cant": "all sequences", "anchors": ["oranssi/optimizers.py:exact_lie_optimizer"]}
{"id": "C46", "title": "Early stopping obeys the tolerance", "statement": "A run that stops early has a final cost change of at most tol.", "quantifier": "every cost sequence and tolerance, including tol=0", "why_tests_cant": "needs adversarial cost magnitudes", "anchors": ["oranssi/optimizers.py:exact_lie_optimizer", "oranssi/optimizers.py:approximate_lie_optimizer", "oranssi/optimizers.py:parameter_shift_optimizer"]}
{"id": "C47", "title": "exact_lie_optimizer step is the Riemannian flow step", "statement": "Each per-observable update equals left multiplication by exp(eta/2 [rho,O]) for an involutory observable, is unitary for every eigendecomposition the eigensolver may return, and the derivative in eta of the observable's cost at eta=0 is minus half the squared Frobenius norm of [rho,O], hence never positive.", "quantifier": "every state, observable, eta, eigendecomposition", "why_tests_cant": "eigendecompositions are not unique; continuum", "anchors": ["oranssi/optimizers.py:exact_lie_optimizer", "oranssi/circuit_tools.py:param_shift_comm"]}
{"id": "C48", "title": "Returned unitary matches the last cost", "statement": "With return_unitary=True the unitary returned by exact_lie_optimizer has the cost reported last.", "quantifier": "every run", "why_tests_cant": "depends on the step at which a perturbation happens", "anchors": ["oranssi/optimizers.py:exact_lie_optimizer"]}
{"id": "C49", "title": "Perturbation bookkeeping", "statement": "With perturbation enabled a run never stops early, the reported perturbation steps are strictly increasing, each is at least 4 (exact) or 9 (approximate) and less than nsteps, and are exactly the steps at which the cost was flat; without it the list is empty.", "quantifier": "every cost sequence", "why_tests_cant": "all sequences", "anchors": ["oranssi/optimizers.py:exact_lie_optimizer", "oranssi/optimizers.py:approximate_lie_optimizer"]}
{"id": "C50", "title": "approximate_lie_optimizer trace and layer cycling", "statement": "Step k applies layer k mod len(layers); costs has one entry more than the steps executed, states and unitaries (if requested) have the same length as costs and entry k belongs to the circuit after k steps; omegas and zassenhaus have one entry per step.", "quantifier": "every nsteps and non-empty layer list", "why_tests_cant": "all run lengths and layer lists", "anchors": ["oranssi/optimizers.py:approximate_lie_optimizer"]}
{"id": "C51", "title": "approximate_lie_optimizer early stopping", "statement": "Without perturb and with a tolerance the run stops after the first step k>=9 whose cost is close to the cost five steps earlier, and with tol=None it always executes nsteps steps.", "quantifier": "every cost sequence", "why_tests_cant": "all sequences", "anchors": ["oranssi/optimizers.py:approximate_lie_optimizer"]}
{"id": "C52", "title": "Shape of the optimizers' return value", "statement": "The optimizer returns the bare cost list when no extra output is requested and otherwise the tuple of the requested outputs in the documented fixed order, starting with the costs.", "quantifier": "every combination of flags", "why_tests_cant": "covers every flag combination of three optimizers at once, for every payload", "anchors": ["oranssi/optimizers.py:parameter_shift_optimizer", "oranssi/optimizers.py:exact_lie_optimizer", "oranssi/optimizers.py:approximate_lie_optimizer"]}
{"id": "C53", "title": "return_gates returns the applied gates", "statement": "With return_gates=True, approximate_lie_optimizer returns one gate record per executed step.", "quantifier": "every run", "why_tests_cant": "every run", "anchors": ["oranssi/optimizers.py:approximate_lie_optimizer"]}
{"id": "C54", "title": "return_omegas works for every layer type", "statement": "With return_omegas=True the optimizer returns the directions dictionary for each step for every layer class.", "quantifier": "every layer class", "why_tests_cant": "type confusion hidden by untested combinations", "anchors": ["oranssi/opt_tools.py:LieLayer.get_lie_algebra_directions", "oranssi/optimizers.py:approximate_lie_optimizer"]}
{"id": "C55", "title": "parameter_shift_optimizer trace and stopping", "statement": "The cost list has one more entry than the executed steps, states and parameters (if requested) are aligned with it, and the run stops after the first step k>=3 whose cost is close to the previous one.", "quantifier": "every cost function and run", "why_tests_cant": "all runs", "anchors": ["oranssi/optimizers.py:parameter_shift_optimizer"]}
{"id": "C56", "title": "Local layer step is a descent direction", "statement": "For a single observable and a single direction the derivative of the cost in eta at 0 of the layer's update is -|omega|^2/2^n <= 0.", "quantifier": "every state, observable, Pauli direction", "why_tests_cant": "continuum", "anchors": ["oranssi/opt_tools.py:LocalLieAlgebraLayer.__call__"]}
{"id": "C57", "title": "Edge colouring heuristic always terminates", "statement": "applyHeuristic terminates for every graph, number of colours, limits and every outcome of the random choices.", "quantifier": "every graph, D, limits, random stream", "why_tests_cant": "the random stream is infinite; non-termination cannot be observed", "anchors": ["oranssi/edge_coloring.py:applyHeuristic", "oranssi/edge_coloring.py:heuristic", "oranssi/edge_coloring.py:KempeProcess"]}
{"id": "C58", "title": "Edge colouring verdict is sound and complete", "statement": "applyHeuristic returns True exactly when the final colouring uses colours 0..D-1 and gives different colours to any two edges that share a vertex.", "quantifier": "every graph and random stream", "why_tests_cant": "all graphs", "anchors": ["oranssi/edge_coloring.py:applyHeuristic", "oranssi/edge_coloring.py:checkEdgeColoring", "oranssi/edge_coloring.py:properlyColored"]}
{"id": "C59", "title": "Edge colouring never crashes with enough colours", "statement": "If D is at least the maximum degree, applyHeuristic raises no exception for any outcome of the random choices, and every edge ends with a colour in 0..D-1.", "quantifier": "every simple graph, D>=max degree, every random stream", "why_tests_cant": "crash depends on the random stream", "anchors": ["oranssi/edge_coloring.py:applyHeuristic", "oranssi/edge_coloring.py:createConflictDictionary", "oranssi/edge_coloring.py:KempeStart"]}
{"id": "C60", "title": "get_commuting_set returns non-overlapping bonds", "statement": "The returned edges are pairwise vertex-disjoint.", "quantifier": "every edge list and random stream", "why_tests_cant": "depends on the random stream and on graph structure", "anchors": ["oranssi/circuit_tools.py:get_commuting_set", "oranssi/edge_coloring.py:applyHeuristic"]}
{"id": "C61", "title": "get_commuting_set only returns given bonds", "statement": "Every returned edge is one of the given edges, possibly with its endpoints swapped, without repetition, and the input is returned unchanged when no vertex is shared.", "quantifier": "every edge list and random stream", "why_tests_cant": "all edge lists", "anchors": ["oranssi/circuit_tools.py:get_commuting_set"]}
{"id": "C62", "title": "get_commuting_set never fails", "statement": "get_commuting_set returns for every edge list of distinct qubit pairs.", "quantifier": "every edge list and random stream", "why_tests_cant": "depends on the random stream", "anchors": ["oranssi/circuit_tools.py:get_commuting_set", "oranssi/edge_coloring.py:createConflictDictionary", "oranssi/edge_coloring.py:KempeStart"]}
{"id": "C63", "title": "Bloch sphere states are pure states", "statement": "spherical_to_state(phi, theta) is a Hermitian, trace-one, rank-one projector with Bloch vector (sin theta cos phi, sin theta sin phi, cos theta).", "quantifier": "all real angles", "why_tests_cant": "continuum", "anchors": ["oranssi/plot_utils.py:spherical_to_state"]}
{"id": "C64", "title": "Bloch angles round-trip", "statement": "state_to_spherical(spherical_to_state(phi, theta)) returns (phi, theta) for 0<theta<pi and 0<=phi<2*pi.", "quantifier": "all angles in the range", "why_tests_cant": "continuum; fails near 2*pi", "anchors": ["oranssi/plot_utils.py:state_to_spherical", "oranssi/plot_utils.py:spherical_to_state"]}
{"id": "C65", "title": "Locality buckets of the direction plots", "statement": "For four qubits every Pauli word except the identity contributes its absolute gradient to exactly one of the four locality curves, the one indexed by its number of I letters.", "quantifier": "every list of direction dictionaries", "why_tests_cant": "all dictionaries", "anchors": ["oranssi/plot_utils.py:plot_su16_directions"]}
{"id": "C66", "title": "save_path_creator ensures the directory", "statement": "save_path_creator returns the joined path and the directory exists afterwards; calling it again changes nothing; and concurrent callers both succeed.", "quantifier": "every path, file system state and interleaving of two callers", "why_tests_cant": "interleavings", "anchors": ["oranssi/utils.py:save_path_creator"]}
{"id": "C67", "title": "Invalid step sizes are rejected by every layer and optimizer", "statement": "A layer or optimizer accepts eta exactly when it is a float in [0,1] and raises otherwise.", "quantifier": "every Python value", "why_tests_cant": "all values", "anchors": ["oranssi/opt_tools.py:LocalLieAlgebraLayer.__init__", "oranssi/optimizers.py:exact_lie_optimizer", "oranssi/optimizers.py:approximate_lie_optimizer", "oranssi/optimizers.py:parameter_shift_optimizer"]}
{"id": "C68", "title": "One-qubit exact run in closed form", "statement": "For one qubit, observable Z and a real rotation circuit, exact_lie_optimizer without perturbation reports the costs cos x_k with x_{k+1} = x_k + eta sin x_k, and for 0 < eta <= 1 and 0 < x_0 < pi the costs strictly decrease.", "quantifier": "every angle, step size, number of steps and eigensolver", "why_tests_cant": "all real angles and run lengths", "anchors": ["oranssi/optimizers.py:exact_lie_optimizer"]}
{"id": "C69", "title": "Flags must be booleans", "statement": "parameter_shift_optimizer rejects a flag argument that is not a boolean with an AssertionError before it runs.", "quantifier": "every value of return_state and return_params", "why_tests_cant": "all values of the flags", "anchors": ["oranssi/optimizers.py:parameter_shift_optimizer"]}
{"id": "C70", "title": "Bloch angles describe the state", "statement": "For every pure one-qubit density matrix rho, state_to_spherical(rho) returns angles phi, theta with spherical_to_state(phi, theta) = rho.", "quantifier": "every pure state", "why_tests_cant": "continuum; the exceptional states form a thin strip", "anchors": ["oranssi/plot_utils.py:state_to_spherical", "oranssi/plot_utils.py:spherical_to_state"]}
{"id": "C71", "title": "plot_su8_directions works for three qubits", "statement": "plot_su8_directions returns for three qubits the sums of absolute gradients of the words with one and with no identity letter.", "quantifier": "every list of unitaries and observables on three qubits", "why_tests_cant": "no test covers the function; all inputs", "anchors": ["oranssi/plot_utils.py:plot_su8_directions", "oranssi/plot_utils.py:plot_su8_directions_individually"]}
{"id": "C72", "title": "Reported circuits are unitary", "statement": "For circuits of unitary gates, every circuit returned by exact_lie_optimizer and approximate_lie_optimizer is unitary and every state has norm 1, for every mixture of layer objects of all classes (local and custom layers with Hermitian observables), with or without perturbation.", "quantifier": "every circuit, observables, list of layers, tolerance, number of steps, random matrices", "why_tests_cant": "all run lengths, all layer mixtures and all inputs", "anchors": ["oranssi/optimizers.py:exact_lie_optimizer", "oranssi/optimizers.py:approximate_lie_optimizer", "oranssi/opt_tools.py:LieLayer"]}
{"id": "C73", "title": "Variational principle", "statement": "For unitary gates and Hermitian observables, every cost reported by any of the three optimizers lies between the smallest and the largest eigenvalue of get_hamiltonian_matrix(observables), and a reported cost equal to the smallest eigenvalue belongs to a state that is a ground state.", "quantifier": "every run of every optimizer", "why_tests_cant": "needs the spectrum of every Hamiltonian and every run", "anchors": ["oranssi/optimizers.py:exact_lie_optimizer", "oranssi/optimizers.py:approximate_lie_optimizer", "oranssi/optimizers.py:parameter_shift_optimizer", "oranssi/circuit_tools.py:get_hamiltonian_matrix"]}
{"id": "C74", "title": "Commuting layers: calling the squared layer with commute=True", "statement": "For every SquaredLieAlgebraLayer (fresh or called before), every circuit and all random choices of the edge colouring, a call with commute=True and an optimizer that returns an angle per parameter succeeds; it returns the circuit followed by rotations exp(-i \u03b8/2 P) about distinct terms P of a single direction whose gradient is within 1e-3 (+1e-5 relative) of the largest one, acting on pairwise different qubits (so that their order does not matter), with the angles the optimizer returned last, and reports exactly these (term, angle) pairs; the circuit given to the optimizer evaluated at these angles is the returned circuit; unitarity is kept.", "quantifier": "all registers, observables, layer states, circuits, optimizers, random sequences", "why_tests_cant": "Whether the call raises depends on the random edge colouring and on the orientation networkx gives a bond; tests exercise a single seed and few graphs.", "anchors": ["oranssi/opt_tools.py:SquaredLieAlgebraLayer.__call__", "oranssi/circuit_tools.py:get_commuting_set"]}
{"id": "C75", "title": "Lie-algebra layers step along the commutator", "statement": "A call of the custom-direction layer (not trotterized) on a circuit U multiplies U, for every observable O in turn, by exp(eta*K), where K consists of exactly those Pauli components of the commutator [rho, O] (rho the state of U at the start of the call) whose non-identity letters spell one of the directions; the local layer does the same for every qubit (pair of qubits) with the components acting on exactly these qubits; with trotterization every component gets its own factor. On one or two qubits with all directions K is the whole commutator, so the call does what one step of exact_lie_optimizer with step size 2*eta does for an involutory observable, and whole runs of the two optimizers report the same costs.", "quantifier": "all numbers of qubits, circuits, Hermitian observables, direction lists, step sizes and valid SVD/eigh results; the comparison for n = 1, 2 and all involutory observables, step sizes and run lengths", "why_tests_cant": "Tests compare floating-point results of a few steps for fixed circuits with a tolerance; a wrong normalisation, sign or missing direction can hide behind a changed step size.", "anchors": ["oranssi/opt_tools.py:LocalLieAlgebraLayer.__call__", "oranssi/opt_tools.py:CustomDirectionLieAlgebraLayer.__call__", "oranssi/optimizers.py:exact_lie_optimizer", "oranssi/optimizers.py:approximate_lie_optimizer"]}
{"id": "C76", "title": "Runs of exact_lie_optimizer with one involutory observable follow one angle and approach the ground energy", "statement": "For any number of qubits, any circuit of unitary gates and one Hermitian observable with square 1 (such as a Pauli word), a run of exact_lie_optimizer without perturbation reports the costs cos x_k, where cos x_0 is the first cost and x_{k+1} = x_k + eta sin x_k. If the first cost lies strictly between -1 and 1 and eta is not 0, the costs decrease strictly and stay above -1; for every accuracy there is a number of steps, depending only on eta, the first cost and the accuracy, after which all costs are that close to -1, the smallest value possible. If the first cost is 1 or -1, all costs are equal to it.", "quantifier": "all numbers of qubits, unitary circuits, involutory Hermitian observables, eigendecompositions, step sizes, first costs, accuracies", "why_tests_cant": "The convergence and the closed form are statements about all step counts, all circuits and all register sizes; tests only sample a few.", "anchors": ["oranssi/optimizers.py:exact_lie_optimizer", "oranssi/circuit_tools.py:param_shift_comm"]}
{"id": "C77", "title": "_project_onto_unitary returns the nearest unitary matrix", "statement": "For every complex matrix, LieLayer._project_onto_unitary returns a unitary matrix and no unitary matrix is closer to the argument in the Frobenius norm. For an invertible argument it is the only closest one, so that the result does not depend on which singular value decomposition numpy returns; for a singular argument the result may depend on it.", "quantifier": "all matrices, all singular value decompositions", "why_tests_cant": "A minimum over all unitary matrices cannot be sampled.", "anchors": ["oranssi/opt_tools.py:LieLayer._project_onto_unitary"]}
{"id": "C78", "title": "What a step with an AdaptVQELayer does", "statement": "A call of an AdaptVQELayer inside approximate_lie_optimizer that returns appends the selected layer to the circuit and a row of n angles 0.1 to the table of parameters, trains the whole table by at most 40 steps of gradient descent with step size 0.01, stops early only at the first step (from the fourth on) at which the cost changes by no more than the relative/absolute tolerance 1e-5, and returns the last table and the unitary of exactly the circuit with that table, applied from the Hadamard state: the circuit unitary that was passed in is used only to select the layer.", "quantifier": "all registers, observables, tables of parameters, circuits and layer states", "why_tests_cant": "The inner optimizer is called through a closure with its own stopping rule; a run only exposes the final circuit.", "anchors": ["oranssi/opt_tools.py:AdaptVQELayer.__call__", "oranssi/optimizers.py:parameter_shift_optimizer", "oranssi/optimizers.py:approximate_lie_optimizer"]}
{"id": "C79", "title": "The parameter-shift rule holds for every angle of an AdaptVQE circuit, and runs with AdaptVQE layers cannot fail", "statement": "For every circuit an AdaptVQELayer has built, the cost is defined for every table of n angles per layer, is a sinusoid of period 2*pi in every single angle, and its derivative is half the difference of the values a quarter turn ahead and behind. With a gradient descent that steps along the derivative, every angle of the training of a call moves by 0.01 times that shift difference; only rows belonging to layers of the called object move. Every run of approximate_lie_optimizer with valid arguments whose layers are AdaptVQE layers (and layers that cannot fail) on two or more qubits and a table of n columns as initial parameters succeeds.", "quantifier": "all registers with two or more qubits, histories of calls, tables, angles, observables, patterns of layers", "why_tests_cant": "The rule is an identity in a continuous family of angles and over all layer sequences.", "anchors": ["oranssi/opt_tools.py:AdaptVQELayer.__call__", "oranssi/optimizers.py:parameter_shift_optimizer", "oranssi/optimizers.py:approximate_lie_optimizer"]}
{"id": "C80", "title": "ZassenhausLayerV2 fits the second-order Baker-Campbell-Hausdorff vector of its ansatz, whatever the iteration order of Python's sets", "statement": "The constructor of ZassenhausLayerV2 succeeds for any number of qubits and any observables exactly when eta is a float in [0, 1] and the flags are Booleans. In whatever order the sets of monomials are traversed, the terms collected are, for all parameters x, the exponent of exp(A)exp(B)exp(C) up to second order, A = -i x0 X0, B = -i x1 X1, C = -i z Z0Z1; the exponential of the vector differs from the product by a third-order term. On two or more qubits a call succeeds; it minimises the mean square distance between the coefficients and eta times the gradients, and returns exp(C/2)exp(B/2)exp(A/2) after Hadamard gates on the qubits 0 and 1, at the parameters the minimiser returned. On fewer qubits every call raises KeyError.", "quantifier": "all iteration orders of the sets, all parameters, observables, registers, minimisers, circuits", "why_tests_cant": "The order of a Python set is an accident of hashing, and the third-order statement is a limit over a continuum of parameters.", "anchors": ["oranssi/opt_tools.py:ZassenhausLayerV2.__init__", "oranssi/opt_tools.py:ZassenhausLayerV2.__call__"]}
{"id": "C81", "title": "A call of ZassenhausLayerV2 appends the fitted step to the circuit, and an exact fit goes downhill", "statement": "A call of ZassenhausLayerV2 returns a unitary that is the given circuit followed by a unitary determined by the fitted parameters (exp(A)exp(B)exp(C)), and when the fit is exact the cost decreases to first order along the fitted vector.", "quantifier": "all registers with two or more qubits, Hermitian observables, minimisers, circuits", "why_tests_cant": "That every circuit preparing an eigenstate is mapped to one and the same circuit, and that the sign of the fitted vector is wrong for every state, needs all circuits and all minimisers.", "anchors": ["oranssi/opt_tools.py:ZassenhausLayerV2.__call__"]}
{"id": "C82", "title": "A run depends on the initial circuit only through the state it prepares, up to a global phase", "statement": "If the compiled matrices of two circuits have the same first column up to a phase, then runs of exact_lie_optimizer, of approximate_lie_optimizer and single layer calls with the same other arguments behave in the same way: they raise the same error, or both succeed with the same costs, gradients, perturbation steps, parameters and layer states, and with states and first columns of the circuits that agree up to the same kind of phase.", "quantifier": "all registers, circuits, observables, layers, arguments and external functions; no hypothesis beyond the equality of rays", "why_tests_cant": "A global phase and the other columns of the matrix are a continuum; a test compares finitely many pairs of circuits, and only those whose rounding agrees.", "anchors": ["oranssi/optimizers.py:exact_lie_optimizer", "oranssi/optimizers.py:approximate_lie_optimizer", "oranssi/opt_tools.py:LieLayer"]}
{"id": "C83", "title": "Runs do not depend on unspecified choices of the libraries", "statement": "Two correct eigensolvers, two correct singular value decompositions and two iteration orders of Python's sets give the same runs: exact_lie_optimizer and approximate_lie_optimizer (with newly constructed layers of any class, and Hermitian observables for the local and custom layers) return the same costs, states, circuits, gradients and layer states, or raise the same error. Products and commutators of monomials do not depend on the order in which their sets of sites are traversed.", "quantifier": "all registers, circuits, observables, arguments, layers, random numbers, and all pairs of correct eigensolvers and singular value decompositions and of set orders", "why_tests_cant": "Eigenvectors and singular vectors of degenerate matrices and the order of a set are fixed by one installation; a test only ever sees one choice.", "anchors": ["oranssi/optimizers.py:exact_lie_optimizer", "oranssi/optimizers.py:approximate_lie_optimizer", "oranssi/opt_tools.py:LieLayer._project_onto_unitary", "oranssi/pauli.py:PauliMonomial.__mul__"]}
{"id": "C84", "title": "Asking for more outputs does not change the others, and some arguments have no effect", "statement": "If a call of one of the three optimizers succeeds, then it also succeeds with any other choice of the return_* flags (except that return_omegas is not newly set, and return_perturbations needs perturbation in the exact optimizer), with the same costs and the same final state of the layers, and every item that both calls return is the same. In approximate_lie_optimizer the value of escape_tol has no effect, and without perturbation neither has the value of eta.", "quantifier": "all registers, circuits, observables, layers, arguments, flags, external functions", "why_tests_cant": "A test runs a few combinations of the 2^6 flags on a few circuits; the argument needs that no flag is read by the update in any step of any run.", "anchors": ["oranssi/optimizers.py:exact_lie_optimizer", "oranssi/optimizers.py:approximate_lie_optimizer", "oranssi/optimizers.py:parameter_shift_optimizer"]}
{"id": "C85", "title": "Greedy layers and the parameter-shift optimizer see only the sum of the observables", "statement": "For two lists of local observables with the same sum on the full space (rearranged, merged, split or padded with zero terms), a run of approximate_lie_optimizer with SquaredLieAlgebraLayer, AdaptVQELayer, SU8_AlgebraLayer or ZassenhausLayer objects built from the respective list has the same outcome: the same error, or the same costs, states, gradients, unitaries and perturbed steps. The same holds for parameter_shift_optimizer. It does not hold for exact_lie_optimizer, which applies one update per term: there the order of the terms changes the result.", "quantifier": "all qubit numbers, circuits, lists of observables with equal sums, lists of greedy layers in any order, keyword arguments and random matrices", "why_tests_cant": "Tests use one fixed splitting of each Hamiltonian; they cannot compare all splittings of all observables over whole runs.", "anchors": ["oranssi/opt_tools.py:424-471", "oranssi/opt_tools.py:529-601", "oranssi/opt_tools.py:653-671", "oranssi/opt_tools.py:744-880", "oranssi/optimizers.py:182-218", "oranssi/optimizers.py:331-389"]}
{"id": "C86", "title": "Runs that start in a common eigenstate of the observables stay there and stop at the first test", "statement": "If the circuit prepares a common eigenstate of all observables (any Hermitian observables, not only involutory ones), a run of exact_lie_optimizer without perturbation leaves the circuit unchanged, reports min(nsteps,5)+1 equal costs, and returns the initial unitary. A run of approximate_lie_optimizer with local and custom layers leaves circuit and layer objects unchanged and reports min(nsteps,10)+1 equal costs (nsteps+1 for tol=None).", "quantifier": "all qubit numbers, circuits that prepare a common eigenstate, lists of Hermitian observables, step sizes, tolerances, layer options and lists of layers", "why_tests_cant": "Tests cannot cover all eigenstates, step sizes and tolerances; an early-stopping off-by-one or a spurious drift at a fixed point shows only over whole runs.", "anchors": ["oranssi/optimizers.py:182-218", "oranssi/optimizers.py:340-375", "oranssi/opt_tools.py:176-201", "oranssi/opt_tools.py:269-298"]}
{"id": "C87", "title": "The commutator digraph closes and its nodes are a basis of the generated Lie algebra", "statement": "generate_product_algebra_digraph, given a non-empty list of Pauli words on three qubits with unit coefficients, ends after at most 129 rounds without an exception. The nodes of the result are linearly independent over the reals and span the real Lie algebra generated by the words, so their number is its dimension. The attribute depth of every node is the least number of rounds of commutators that reach it up to sign. For two words there are one (same word), two (commuting) or three (anticommuting) nodes; an empty list raises ValueError.", "quantifier": "all non-empty lists of generators on three sites with coefficient \u00b11 or \u00b1i, all orders of Python's sets", "why_tests_cant": "There are astronomically many lists of generators; termination, linear independence and minimality of the depth attribute are statements about the whole closure, which a test cannot compute independently.", "anchors": ["experiments_paper/algebra_graphs.py:dynamic_algebra_directed", "experiments_paper/algebra_graphs.py:generate_product_algebra_digraph", "oranssi/pauli.py:PauliMonomial.commutator"]}
{"id": "C88", "title": "The algebra graph script runs for all of its random draws", "statement": "SU4_to_SU8_algebra returns two lists of nine words: the nine two-letter words on sites 0,1 padded with an identity on site 2, and the nine on sites 1,2 padded on site 0. main, which draws one index for each list below the length of the first list, never raises, and its graph has two nodes when the two words agree on site 1 and three otherwise.", "quantifier": "all outcomes of the two random draws, all orders of Python's sets", "why_tests_cant": "The script draws two of 81 pairs at random and looks at a picture; a wrong filter or padding would show only for some draws.", "anchors": ["experiments_paper/algebra_graphs.py:SU4_to_SU8_algebra", "experiments_paper/algebra_graphs.py:main"]}
{"id": "C89", "title": "The number of nodes is the dimension of the dynamical Lie algebra", "statement": "For every list of Hermitian Pauli words the number of nodes of generate_product_algebra_digraph is the dimension of the dynamical Lie algebra, the real Lie algebra generated by i times the words. (False in general: X, Y, Z on one site give six nodes for a three-dimensional algebra, since the graph keeps A and iA apart. True for any two generators, which is what the script uses.)", "quantifier": "all lists of generators on three sites", "why_tests_cant": "For the two random words of the script the count is right, so running the script never shows the difference.", "anchors": ["experiments_paper/algebra_graphs.py:generate_product_algebra_digraph"]}
{"id": "C90", "title": "The undirected algebra graph is the anticommutation graph of the closure, with the identity joined to everything", "statement": "generate_product_algebra_graph, given a non-empty list of Pauli words on three qubits with unit coefficients, ends after at most 130 rounds without an exception. Its nodes are a basis of the real Lie algebra generated by the words and the identity, and two nodes are joined exactly if they do not commute or one of them is plus or minus the identity. For an empty list the result is the empty graph; if the first word does not have exactly three letters, the call raises AssertionError.", "quantifier": "all lists of generators on three sites with coefficient \u00b11 or \u00b1i, all orders of Python's sets; all other lengths of the first word", "why_tests_cant": "The call in main is commented out, and a picture of up to 128 nodes cannot be checked by eye; termination and the exact edge set are statements about the whole closure.", "anchors": ["experiments_paper/algebra_graphs.py:dynamic_algebra", "experiments_paper/algebra_graphs.py:generate_product_algebra_graph"]}
{"id": "C91", "title": "Parameter shift and Riemannian descent coincide when one angle sweeps the observable", "statement": "If the cost of a circuit depends on one of its parameters only, as the cosine of that parameter plus a constant (for instance the circuit RY(params[0]) with the observable X of plot_equal), then parameter_shift_optimizer and exact_lie_optimizer (without perturbation) called with the same step size, tolerance and number of steps report the same costs step by step. The parameter-shift costs are an initial segment of the exact ones, and the lists are equal unless parameter shift already stops after its fourth step, a test that the exact optimizer does not perform. For the circuit of plot_equal the returned states agree as well, as vectors.", "quantifier": "all numbers of qubits, involutory observables, circuits of unitary gates, parameter lists, step sizes, tolerances and numbers of steps; every gradient-descent routine that subtracts eta times the partial derivatives and every correct eigendecomposition", "why_tests_cant": "plot_equal draws the two trajectories for one starting point, two parameters and eta = 0.1 and compares them by eye; that they coincide for every starting point and step size, and exactly when the lengths of the lists may differ, is not visible in a plot.", "anchors": ["experiments/single_qubit_ps_comparison.py:15-66", "oranssi/optimizers.py:13-97", "oranssi/optimizers.py:100-221"]}
{"id": "C92", "title": "The exact step is the steepest step", "statement": "For one involutory observable, an exact step from a state with cost cos x reaches the cost cos(x + eta sin x) and moves the state to overlap cos(eta sin x / 2). No state whose overlap with the present state is at least this large has a smaller cost.", "quantifier": "all numbers of qubits, involutory Hermitian observables on any wires, unitary circuits, step sizes between 0 and 1, and all competing states", "why_tests_cant": "Optimality over all states within a distance is a statement about a continuum of competitors; a test can only compare with a few directions.", "anchors": ["oranssi/optimizers.py:161-200"]}
{"id": "C93", "title": "On the circuit of plot_difference the exact optimizer is never above parameter shift", "statement": "For the circuit RY(params[0]) RZ(params[1]) with the observable X, the parameter-shift costs are sin(a) cos(b) along gradient descent on this function, the exact costs follow x -> x + eta sin x from x = arccos(sin(a) cos(b)), and with equal step sizes the k-th exact cost is at most the k-th parameter-shift cost. From params [0, b] with b not a multiple of pi the exact cost is strictly smaller after one step.", "quantifier": "all parameter lists with at least two entries, step sizes, tolerances, numbers of steps and steps k that both runs perform", "why_tests_cant": "plot_difference shows one pair of runs from [0.4, 1.2] with eta = 0.1; the comparison for all starting points and all steps needs an inequality between the two flows.", "anchors": ["experiments/single_qubit_ps_comparison.py:165-215", "oranssi/optimizers.py:13-97", "oranssi/optimizers.py:100-221"]}
{"id": "C94", "title": "The exact optimizer conserves every symmetry of the observables", "statement": "If an operator Q commutes with every observable and the circuit prepares an eigenvector of Q, then all states reported by exact_lie_optimizer without perturbation, and the state of the circuit returned, are eigenvectors of Q with the same eigenvalue; every cost is the expectation of the Hamiltonian in a normalised state of that eigenspace, so no cost is below the minimum over the eigenspace.", "quantifier": "all qubit numbers, observables, operators Q, circuits, step sizes, tolerances and runs without perturbation", "why_tests_cant": "The consequence is an invariant of the whole trajectory for every operator Q; tests compare costs of single runs and never compute a conserved quantity.", "anchors": ["oranssi/optimizers.py:100-226", "oranssi/circuit_tools.py:10-22"]}
{"id": "C95", "title": "Local and custom layers conserve the Pauli symmetries of their observables", "statement": "If a Pauli word commutes with every observable of the layers and the circuit prepares one of its eigenvectors, then a call of a local or custom layer (trotterized or not, with or without the unitarity check) keeps the eigenvalue, and so does a whole run of approximate_lie_optimizer without perturbation: all states and circuits reported lie in the sector of the start.", "quantifier": "all qubit numbers, Pauli words, Hermitian observables commuting with the word, layer options, sequences of layers and runs without perturbation", "why_tests_cant": "The rotations along words that anticommute with the symmetry are in the generator; that their coefficients vanish at every step of every run is an identity about commutator expectations that no finite set of runs establishes.", "anchors": ["oranssi/opt_tools.py:176-201", "oranssi/opt_tools.py:203-293", "oranssi/optimizers.py:229-390"]}
{"id": "C96", "title": "The unperturbed run of eigenstate_perturbation.py cannot reach the minimum it draws", "statement": "The matrix H of the script is the sum of its observables; its smallest eigenvalue is -1-sqrt(2). Started in |++>, exact_lie_optimizer without perturbation keeps X on the second qubit at +1, so that every cost is at least 1-sqrt(2), which is 2 above the minimum, for any step size, tolerance and number of steps. Both calls of the script succeed.", "quantifier": "all step sizes, tolerances, numbers of steps and valid eigensolvers", "why_tests_cant": "The script shows one run of 100 steps that stays on the second eigenvalue; that no longer run or other step size gets below it is a statement about all runs.", "anchors": ["experiments_paper/eigenstate_perturbation.py:13-52", "oranssi/optimizers.py:100-226"]}
{"id": "C97", "title": "unitary(r) of fixed_points.py parametrises SU(2)", "statement": "unitary(r) returns an element of SU(2) together with True exactly for the points r of the closed unit ball, with r the coordinates of the first column; for the other grid points it returns False. Every element of SU(2) is returned for some r, up to a global sign.", "quantifier": "all points r in R^3, all elements of SU(2)", "why_tests_cant": "The script evaluates 8000 grid points; that the half sphere covers all circuits up to sign, and that the check accepts exactly the ball, are statements about a continuum.", "anchors": ["experiments_paper/fixed_points.py:10-15"]}
{"id": "C98", "title": "The gradients collected by fixed_points.py vanish exactly at the extrema", "statement": "For every r in the ball the row of gradients is half the gradient of the cost of unitary(r) for X + Y along X, Y, Z; the sum of the squares is 2 - cost^2; the row vanishes iff the cost is sqrt(2) or -sqrt(2), iff the state is an eigenvector, so the landscape has no other fixed points.", "quantifier": "all points r of the unit ball", "why_tests_cant": "Fixed points form a set of measure zero that no grid point hits; only the identity for all r shows that there are no others.", "anchors": ["experiments_paper/fixed_points.py:18-44", "oranssi/circuit_tools.py:147-171"]}
{"id": "C99", "title": "The costs collected by fixed_points.py are the costs of the circuits", "statement": "For every grid point r in the ball the entry of costs is the expectation of X + Y in the state unitary(r)|0>.", "quantifier": "all points r of the unit ball", "why_tests_cant": "There is no test of the script; the array is only drawn, and the wrong values lie in the same range as the right ones.", "anchors": ["experiments_paper/fixed_points.py:29-43"]}
{"id": "C100", "title": "level_surface solves the level equation of X + Y on the 3-sphere", "statement": "level_surface(r3, r4, c) is the smallest r2 for which a circuit of SU(2) with first column (r1 + i r2, r3 + i r4) has cost c for X + Y, and nan when there is no such circuit.", "quantifier": "all real r3, r4, c", "why_tests_cant": "The formula is the output of a computer algebra system; a grid plot cannot tell a root from a spurious value, least of all on a line of measure zero.", "anchors": ["experiments_paper/3_sphere_level_curves.py:6-9"]}
{"id": "C101", "title": "Quantitative descent of one layer step", "statement": "One step of size eta >= 0 of a LocalLieAlgebraLayer or CustomDirectionLieAlgebraLayer from a unitary circuit changes the cost by -(eta/2^n) * sum_P grad_P^2, up to an error of at most 2*||H||*((eta/2^n) * sum over the observables and operators of |grad|)^2. For a single observable the step lowers the cost by at least (eta/2^n)*(1 - 2*(eta/2^n)*K*||H||)*sum_P grad_P^2, where K is the number of operators of the layer and ||H|| the operator norm.", "quantifier": "for all numbers of qubits, Hermitian observables, localities, directions, options (trotterized or not, with or without the unitarity check), unitary circuits and step sizes", "why_tests_cant": "The bound is an inequality over all circuits and all observables on any number of qubits; a test sees finitely many circuits and cannot show that no circuit violates the bound.", "anchors": ["oranssi/opt_tools.py:175-201", "oranssi/opt_tools.py:267-295"]}
{"id": "C102", "title": "Explicit step-size guarantee for a run", "statement": "If approximate_lie_optimizer is run on a single observable with local and custom layers whose step sizes satisfy 4*eta*K*||H|| <= 2^n (K the number of operators of the layer), without perturbation, then the costs never increase, every step lowers the cost by at least eta/2^(n+1) times the sum of the squared gradients along the operators of the layer called, and if all step sizes are at least eta0, a run of j steps has a step at which this sum is at most 2^(n+2)*||H||/(eta0*j).", "quantifier": "for all circuits, Hermitian observables, sequences of layers, numbers of steps and tolerances", "why_tests_cant": "It is a statement about all runs of any length; monotonicity seen in some runs says nothing about others.", "anchors": ["oranssi/optimizers.py:229-390", "oranssi/opt_tools.py:175-201", "oranssi/opt_tools.py:267-295"]}
{"id": "C103", "title": "Two observables that do not commute: the run reaches the ground state of their sum", "statement": "With observables [A, B] that are anticommuting involutions (X and Y in red_blue_comparison.py) exact_lie_optimizer keeps a ground state of A + B fixed and otherwise drives the cost to its smallest value, -sqrt(2).", "quantifier": "all numbers of qubits, circuits, pairs of anticommuting involutory observables, step sizes in (0, 1], first states", "why_tests_cant": "The excess over the smallest value is of the order of eta squared, 2e-4 for the eta of the script, and looks like slow convergence in any plot; that it is a limit needs the whole infinite run.", "anchors": ["oranssi/optimizers.py:183-194", "experiments_paper/red_blue_comparison.py:43-70"]}
{"id": "C104", "title": "ZassenhausLayerV2 can reach the minimum that its script draws", "statement": "In two_observables_2_qubits_zassenhaus_v2 (observables X0, X1, Y1) the circuits that ZassenhausLayerV2 returns can come arbitrarily close to the smallest eigenvalue gs_en of the Hamiltonian, which the script computes and draws as 'Minimum', and each of the three fitted angles matters.", "quantifier": "all register sizes from two qubits, previous circuits, answers of the minimiser, set orders, step sizes", "why_tests_cant": "A run only shows that the costs stay above the line, which looks like an optimiser that is still converging or stuck; that no angles whatever lead below -2 needs all of them.", "anchors": ["oranssi/opt_tools.py:977-1018", "experiments_paper/zassenhaus.py:77-117"]}
{"id": "C105", "title": "bch_recusion produces the Baker-Campbell-Hausdorff series", "statement": "Starting from terms = [[X, Y]], the monomials that bch_recusion appends at order k sum to the terms of order k of log(exp X exp Y): [X,Y]/2 at order 2, ([X,[X,Y]] + [Y,[Y,X]])/12 at order 3.", "quantifier": "all pairs of Pauli monomials, coefficients, iteration orders of sets, numbers of calls", "why_tests_cant": "The script only prints the terms, each of which looks plausible; that their sums are off needs the denotation of the printed objects, and that all higher orders cancel needs induction over the calls.", "anchors": ["experiments_paper/BCH.py:118-159", "oranssi/pauli.py:234-243"]}
{"id": "C106", "title": "Layers with commuting directions make one exact step", "statement": "If the operators of a local or custom layer commute with each other (for instance directions ['Z', 'ZZ']), then a call multiplies the circuit by one exponential, exp(eta K) with K the components of [rho, H] along these operators and H the sum of all observables: neither the loop over the observables nor trotterize nor unitary_error_check makes a difference.", "quantifier": "all numbers of qubits, lists of Hermitian observables, lists of commuting directions, layer arguments, step sizes, circuits", "why_tests_cant": "A product of exponentials and the exponential of the sum differ at second order in eta only, so a numerical comparison at small eta cannot tell an identity from a small splitting error.", "anchors": ["oranssi/opt_tools.py:168-210", "oranssi/opt_tools.py:269-304"]}
{"id": "C107", "title": "approximate_example.py: the run in closed form", "statement": "In approximate_example.py (|++>, observables X0 and Y0 Z1, directions YY and ZZ) every call is the full Riemannian step exp(eta [rho, H]); the costs are sqrt(2) cos x_k with x_0 = pi/4 and x_{k+1} = x_k + 2 sqrt(2) eta sin x_k, they decrease strictly for 0 < 2 sqrt(2) eta <= 1 and converge to -sqrt(2), the smallest eigenvalue that the script subtracts; leaving out YY only halves the step size.", "quantifier": "all step sizes, numbers of steps, tolerances, layer arguments, first states exp(-i theta/2 ZZ)|++>, runs", "why_tests_cant": "A run shows 50 costs for one eta; that two of fifteen directions lose nothing, and that the limit is the minimum, needs all states on the orbit and the infinite run.", "anchors": ["experiments_paper/approximate_example.py:8-31", "oranssi/opt_tools.py:269-304", "oranssi/optimizers.py:229-373"]}
{"id": "C108", "title": "red_blue_comparison.py: parameter shift in closed form", "statement": "On the circuit RY(a) RZ(b) with the observables X and Y, gradient descent decouples: a + b - 3 pi/4 and a - b - pi/4 are two angles that each follow x -> x + sqrt(2) eta sin x, and the cost is the sum of their cosines times sqrt(2)/2. Every step goes down, a run with tolerance t > 0 takes at most 2 sqrt(2)/t + 4 steps and ends where the gradient is small or after nsteps, and the costs approach the smallest eigenvalue -sqrt(2) of X + Y from every start at which both angles can move.", "quantifier": "all starting parameters, step sizes in [0, 1], tolerances, numbers of steps, return flags, gradients", "why_tests_cant": "The script runs one start and one eta for at most 100 steps; the limit, the bound on the number of steps and the exceptional starting points need all of them.", "anchors": ["experiments_paper/red_blue_comparison.py:16-43", "oranssi/optimizers.py:13-97"]}
{"id": "C109", "title": "The red figure of red_blue_comparison.py shows the trajectory of the parameters", "statement": "The path drawn into the red figure (the parameters modulo 2 pi) follows the parameters of the run: every drawn point has the landscape height of its cost, and consecutive points are as close as consecutive parameters.", "quantifier": "all gradients, starting parameters and arguments (points); the run of the script (path)", "why_tests_cant": "The figure is only looked at; a line across the whole figure does not raise anything, and whether it appears depends on the run crossing a multiple of 2 pi.", "anchors": ["experiments_paper/red_blue_comparison.py:42-43", "experiments_paper/red_blue_comparison.py:153-159"]}
{"id": "C110", "title": "The parameter-shift curve of toy_example.py can reach the dashed minimum", "statement": "The circuit of toy_example.py can prepare a state whose cost is the smallest eigenvalue of the Hamiltonian, which the figure draws as the minimum, so the parameter-shift run can converge to the dashed line.", "quantifier": "all gradient steps, starting parameters and arguments of parameter_shift_optimizer", "why_tests_cant": "A run shows the one local minimum that it converges to; that no parameters whatever reach the line is a statement about all of them.", "anchors": ["experiments_paper/toy_example.py:14-29", "experiments_paper/toy_example.py:44-49"]}
{"id": "C111", "title": "Squared and SU(8) layers conserve the Pauli symmetries of the observables while some gradient is left", "statement": "If a Pauli word commutes with all observables and the initial state is an eigenvector of it, every circuit produced by squared and SU(8) layers is in the same eigenspace, as long as at each step at least one of the directions the layer may take has a nonzero gradient. The condition is needed: where all gradients vanish the layer rotates about the first direction of its dictionary, which can flip the symmetry.", "quantifier": "all n, all lists of observables given as matrices on qubits, all Pauli words commuting with them, all circuits in the sector, all runs of the optimizer", "why_tests_cant": "A test checks one Hamiltonian with one symmetry; the conservation follows from a relation between gradients and symmetries that holds for every observable list and every history of calls.", "anchors": ["oranssi/opt_tools.py:378-450", "oranssi/opt_tools.py:653-671", "oranssi/optimizers.py:340-380"]}
{"id": "C112", "title": "The runs of the Ising scripts start with a gradient and keep the spin flip", "statement": "With three or more qubits the optimizer call of tfim_su4_linesearch.py and tfim_su8_linesearch.py succeeds for all valid arguments; two directions have a gradient in the initial state, so the second circuit reported is always symmetric under the flip of all spins, and each later one is as long as the circuits before it have two directions with a gradient. In those circuits Z and Y have expectation zero on every qubit.", "quantifier": "all n >= 3, all valid arguments without perturbation, squared and SU(8) layers, all singular value decompositions", "why_tests_cant": "The scripts run with 4 and 6 qubits only and never check the symmetry of the states; the statement is about every chain length and every circuit reported.", "anchors": ["experiments_paper/tfim_su4_linesearch.py:36-54", "experiments_paper/tfim_su8_linesearch.py:19-45"]}
{"id": "C113", "title": "The minimum drawn in tfim_su4_adapt_vqe.py is the ground state energy", "statement": "The Hamiltonian of the periodic chain of four spins built by the scripts has the smallest eigenvalue -sqrt(16 + 8 sqrt 2). The number -5.226251859505502 that tfim_su4_adapt_vqe.py draws as minimum agrees with it up to 5e-15, no cost reported by the optimizer with any layers lies below the drawn line by more than that, and a step reporting that energy has reached a ground state.", "quantifier": "all runs of approximate_lie_optimizer on the chain of four spins, all layers, arguments and random numbers; all vectors for the eigenvalue", "why_tests_cant": "The script draws a number that was computed once and pasted; running it cannot tell whether it is the minimum over all states, or only a value some routine returned.", "anchors": ["experiments_paper/tfim_su4_adapt_vqe.py:16-52", "experiments_paper/tfim_su4_linesearch.py:36-54"]}
{"id": "C114", "title": "The adaptive layer keeps the flip symmetry", "statement": "Let the flip of all qubits commute with the observables. A call of an AdaptVQELayer on a circuit with a definite value of the flip and two layers with a gradient, after any history of such calls, returns a circuit that prepares a state invariant under the flip, whatever inner optimizer is used and whatever angles it returns; so do all steps of approximate_lie_optimizer as long as two layers have a gradient.", "quantifier": "all numbers of qubits >= 2, observables with the symmetry, histories, inner optimizers, angles, circuits", "why_tests_cant": "The symmetry is a property of the selection rule and of all angles the inner optimizer could return; a test follows one trajectory, on which floating-point noise hides exact zeros.", "anchors": ["oranssi/opt_tools.py:484-592", "oranssi/optimizers.py:240-380"]}
{"id": "C115", "title": "The first adaptive layer on the Ising ring", "statement": "For the Hamiltonian and initial state of tfim_su4_adapt_vqe.py on n >= 3 qubits the gradients of the candidate layers are twice the number of bonds for the words YZ and ZY and zero otherwise; the first layer selected is (YZ, even) for even n and (YZ, odd) for odd n, and the circuit of the first step consists of Hadamard gates and rotations about YZ on these bonds. The run of the script succeeds, and keeps every qubit's expectation of Z and Y at zero as long as two layers have a gradient.", "quantifier": "all n >= 3, inner optimizers, arguments of the optimizer", "why_tests_cant": "The choice hangs on exact ties (several layers have the same summed gradient) broken by the order of the dictionary; with rounded numbers a test sees an arbitrary winner and only one n.", "anchors": ["experiments_paper/tfim_su4_adapt_vqe.py:14-40", "oranssi/opt_tools.py:529-592"]}
{"id": "C116", "title": "The first step of tfim_su4_adapt_vqe.py ends untrained after exactly 40 iterations", "statement": "In the run of tfim_su4_adapt_vqe.py with an even number n = 2p >= 4 of qubits, the first call of AdaptVQELayer trains its layer for exactly 40 iterations of the inner optimizer, whatever step size the script hands to the outer optimizer: every angle goes from 0.1 to t_40 of the recursion t + 0.01 (2 sin t + cos t). The first two costs reported are n and p (2 cos t_40 - sin t_40) > 0, although the same circuit with other angles reaches its minimum -p sqrt 5.", "quantifier": "all even numbers of qubits from four on, all gradient descent steps that subtract eta times the gradient, all arguments of the layer and of the optimizer, all random numbers", "why_tests_cant": "A run shows a cost for one number of qubits; that the training is cut by the iteration limit and not by its tolerance, and how far from the minimum of its own circuit it stops, needs the exact dynamics of all angles.", "anchors": ["oranssi/opt_tools.py:544-601", "oranssi/optimizers.py:209-272", "experiments_paper/tfim_su4_adapt_vqe.py:16-41"]}
{"id": "C117", "title": "Greedy and Zassenhaus layers keep the flip symmetry without conditions on the gradients", "statement": "Let w be a Pauli word with letters I or X on the first three of n >= 3 qubits that commutes with all observables, and let the state lie in an eigenspace of w. Every successful call of SquaredLieAlgebraLayer, SU8_AlgebraLayer or ZassenhausLayer keeps the state in that eigenspace, whether or not any direction has a gradient. In the phase su8 a successful call of ZassenhausLayer keeps every Pauli symmetry. Hence every circuit reported by tfim_su4_linesearch.py, tfim_su8_linesearch.py and tfim_zassenhaus is symmetric under the flip of all qubits and has vanishing expectation of Z and Y on every qubit.", "quantifier": "all n >= 3, all observables and words as described, all histories of the layers, all circuits in the eigenspace, all ratios and step sizes, all unperturbed runs", "why_tests_cant": "The statement concerns all circuits and histories, among them those where all gradients vanish and the first direction of a dictionary decides.", "anchors": ["oranssi/opt_tools.py:424-470", "oranssi/opt_tools.py:653-678", "oranssi/opt_tools.py:744-882", "experiments_paper/zassenhaus.py:119-148", "experiments_paper/tfim_su4_linesearch.py:30-55", "experiments_paper/tfim_su8_linesearch.py:20-45"]}
{"id": "C118", "title": "The SU(8) step of ZassenhausLayer ignores the sign of its gradient and can raise the cost for every step size", "statement": "A successful SU(8) call of ZassenhausLayer rotates along a pair direction B with gradient g by the angle eta*omega/2^n with omega = -(2 g_AB/eta_A)/sigma. The cost becomes c cos^2 t + c' sin^2 t - g cos t sin t, so that for small step sizes it falls exactly if omega and g have the same sign; the program only prints whether they have. With the observables X0X1 and X2 on three qubits, the circuit 1 and the ratio (1, 1), the first call brings the cost from 0 to -sqrt(2)/2 and the SU(8) call raises it for every step size in (0, 1], to sqrt(2)/2 (sin 2t - cos 2t) with t = eta sqrt(2)/(4 pi).", "quantifier": "all histories, circuits, observables and step sizes for the cost; all step sizes in (0, 1] and all iteration orders of sets for the example", "why_tests_cant": "A test sees costs for single step sizes; that no step size makes the step go downhill needs the exact cost as a function of the step size.", "anchors": ["oranssi/opt_tools.py:775-847"]}
{"id": "C119", "title": "The comparisons of BCH.py: the Baker-Campbell-Hausdorff formula cut off after the commutator", "statement": "exp(A + B + 1/2 [A, B]) equals exp(A) exp(B) for all commuting A and B; for A = -i a P and B = -i b Q with anticommuting Pauli words P, Q and |a|, |b| < pi it does so only if a = 0 or b = 0. Hence closeness_2 prints True, False, False, False: neither inner bracket vanishes and un1 is not close to un2. The polynomial of closeness_1 has the wrong sign in front of x1: for x0 = 0 it is the cut-off formula of the circuit with angle -x1 and equals circuit_unitary only for x1 = 0 (|x1|, |z12| < pi); for x1 = 0 the sign of the YZ term is wrong as well and it equals circuit_unitary only if x0 = 0 or z12 = 0 (|x0|, |z12| <= pi/2).", "quantifier": "all pairs of Pauli words on any number of qubits, all angles in the stated ranges", "why_tests_cant": "The script compares one pair of matrices; for which angles and words the formula is exact cannot be read off a single comparison.", "anchors": ["experiments_paper/BCH.py:59-73", "experiments_paper/BCH.py:88-116"]}
{"id": "C120", "title": "fixed_points.py prints the grid point with the smallest cost", "statement": "The list printed after np.argmin(costs) is the point of the grid at which the entry of costs is smallest.", "quantifier": "all sizes of the grid; the script's own size 20", "why_tests_cant": "The printed numbers look like any other grid point; that they belong to a different entry of the array only follows from the axis order of np.meshgrid.", "anchors": ["experiments_paper/fixed_points.py:18-21", "experiments_paper/fixed_points.py:28-52"]}
{"id": "C121", "title": "The angles that ZassenhausLayerV2 accumulates in params are not those of the circuit it returns", "statement": "Over any run with a ZassenhausLayerV2 on at least two qubits, with any minimiser and any observables, the attribute params is (0.1, 1.2, 0.6) plus the sum of the angles fitted in all steps, while the circuit after a step is the ansatz with the angles of the last fit alone. The ansatz with the angles params prepares the state of the returned circuit exactly if 0.6 plus the third angles of the earlier fits is a multiple of 2 pi; after the first step it never does.", "quantifier": "for all minimisers, observables, start circuits, set orders, register sizes n >= 2 and numbers of steps", "why_tests_cant": "the attribute is printed but never compared with the circuit; whether the two agree depends on the angles a numerical minimiser finds", "anchors": ["oranssi/opt_tools.py:947-947", "oranssi/opt_tools.py:999-1018"]}
{"id": "C122", "title": "The variational circuit of tfim_su4_linesearch.py is alternating evolution under the couplings and the field", "statement": "For at least 2 qubits and at least 2*(n//2) parameters, the circuit compiles to n//2 layers of exp(-i a/2 sum ZZ over the ring) followed by exp(-i b/2 sum X), after Hadamard gates on all qubits; with fewer parameters it is an IndexError and further parameters have no effect. The state is invariant under flipping all qubits, adding pi to any parameter leaves the cost as it is, and so does changing the sign of all parameters.", "quantifier": "for all numbers of qubits n >= 2 and all lists of parameters", "why_tests_cant": "The decomposition of the ZZ rotations into CNOT and RZ on even, odd and closing bonds, and the periods of all angles, hold for all angles and all ring sizes; a test sees a few angles on 4 qubits.", "anchors": ["experiments_paper/tfim_su4_linesearch.py:17-33", "experiments_paper/tfim_su4_linesearch.py:36-38"]}
{"id": "C123", "title": "Parameter-shift descent of tfim_su4_linesearch.py does not move from angles that are multiples of pi/2", "statement": "With an exact gradient step, the call of parameter_shift_optimizer on this circuit succeeds whenever there are enough parameters. The cost is differentiable in every parameter, and at every point whose parameters are multiples of pi/2 all derivatives are 0: a run that starts there returns its first cost min(nsteps, 4)+1 times, and the parameters it returns are its start. From 0 this cost is n, the cost of the Hadamard state.", "quantifier": "for all n >= 2, all parameter lists, all learning rates, tolerances and numbers of steps", "why_tests_cant": "There are infinitely many such starting points and the claim is that every derivative is exactly 0 there; numerical runs only show small numbers.", "anchors": ["experiments_paper/tfim_su4_linesearch.py:17-41", "oranssi/optimizers.py:13-97"]}
{"id": "C124", "title": "Symmetries with a complex conjugation are kept", "statement": "If every observable is unchanged when it is conjugated and a Pauli word is applied (for the empty word: if every observable is real), and the state of the initial circuit is unchanged up to a phase, then so is every state and circuit reported by exact_lie_optimizer, by approximate_lie_optimizer with local and custom layers, and, while two directions of one or two letters have a gradient, with squared and SU(8) layers. The gradient along every direction that is unchanged vanishes in such a state.", "quantifier": "all qubit numbers, all observables and circuits with the symmetry, all Pauli words, all step sizes and layers of the kinds named", "why_tests_cant": "a test checks single Hamiltonians and states; the antiunitary symmetry has no conserved number that could be read off", "anchors": ["oranssi/optimizers.py:100-226", "oranssi/circuit_tools.py:10-22", "oranssi/opt_tools.py:176-201", "oranssi/opt_tools.py:203-293", "oranssi/optimizers.py:229-390", "oranssi/opt_tools.py:378-450", "oranssi/opt_tools.py:653-671", "oranssi/optimizers.py:340-380"]}
{"id": "C125", "title": "The circuits of the Ising scripts are real", "statement": "For three or more qubits the calls of the optimizer in tfim_su4_linesearch.py and tfim_su8_linesearch.py succeed, and while the circuits have two directions with a gradient they prepare states with real amplitudes up to a phase. Only words with an odd number of Y and an odd number of Z have a gradient there, every step rotates about such a word (for the squared layer: Y on one qubit and Z on another), and the curve SU(2) in the figure of tfim_su4_linesearch.py is identically zero.", "quantifier": "all n >= 3, all valid arguments, all steps before the gradients vanish", "why_tests_cant": "a run of the script shows floating point numbers of one size, not which words can have a gradient", "anchors": ["experiments_paper/tfim_su4_linesearch.py:36-54", "experiments_paper/tfim_su8_linesearch.py:19-45", "experiments_paper/tfim_su4_linesearch.py:51-54", "experiments_paper/tfim_su4_linesearch.py:96-97", "oranssi/plot_utils.py:140-173"]}
{"id": "C126", "title": "Which files the Ising scripts leave behind", "statement": "tfim_su4_linesearch.py ends normally and writes its two figures and all circuits of the run. tfim_su8_linesearch.py saves every circuit of the run and then ends with a KeyError for every number of qubits other than 4, so that with its 6 qubits the figure su8_optimizer_tfim_6.pdf is never written. tfim_su4_adapt_vqe.py writes the figure of the costs and then ends with a TypeError, so that its two figures of directions are never written. tfim_zassenhaus(nqubits), if its run does not raise, writes the figure of the costs and ends normally for 4 or more qubits (with the circuits and the second figure for exactly 4), and with a KeyError for 3.", "quantifier": "for all numbers of qubits from 2 or 3 on, all singular value decompositions, eigendecompositions and random numbers, all files written before", "why_tests_cant": "The scripts are not run by any test, and the failing statements come after minutes of optimisation; a test would check one number of qubits, while the outcome depends on it (the hard-coded word XXXX fits 4 qubits only).", "anchors": ["experiments_paper/tfim_su8_linesearch.py:14-63", "experiments_paper/tfim_su4_linesearch.py:11-98", "experiments_paper/tfim_su4_adapt_vqe.py:15-73", "experiments_paper/zassenhaus.py:119-210", "oranssi/plot_utils.py:96-173"]}
{"id": "C127", "title": "Where the curves of the Ising figures begin", "statement": "In the initial state |+...+> of the Ising scripts the gradient along a Pauli word is twice the number of bonds of the ring that carry the letters Y and Z while every other letter of the word is I or X. The curve of the words with b letters I therefore begins at 4 n C(n-2,b) / 2^n, all curves together at n. In the figures for four qubits the curves SU(2), SU(4), SU(8), SU(16) begin at 0, 1, 2 and 1, whatever layers are trained: the largest gradient weight lies on words of three letters, which SquaredLieAlgebraLayer and AdaptVQELayer cannot select.", "quantifier": "for all numbers of qubits n >= 2, all words, all layers and successful runs", "why_tests_cant": "No test computes gradients along all 4^n words or looks at the data of the figures.", "anchors": ["experiments_paper/tfim_su4_linesearch.py:36-97", "oranssi/plot_utils.py:140-173", "oranssi/circuit_tools.py:147-173"]}
{"id": "C128", "title": "The first line search of the Ising scripts misses the minimum of its own direction", "statement": "On a ring of n >= 3 qubits the first call of SquaredLieAlgebraLayer, SU8_AlgebraLayer and ZassenhausLayer in the initial state |+...+> selects the same direction ('YZ', 0, 1) and returns the same circuit. The cost goes from n to a value between n - 1.95 and n - 1.94, although the least cost along this direction is n - 2 - sqrt(5). So the first two costs of every run of tfim_su4_linesearch.py, tfim_su8_linesearch.py and tfim_zassenhaus in zassenhaus.py are n and about n - 1.946.", "quantifier": "all n >= 3, all layer options, arguments, environments and parameters", "why_tests_cant": "a test sees one ring size and cannot tell the value reached from the best value along the direction without knowing it; here both are computed for every n", "anchors": ["oranssi/opt_tools.py:1272-1305", "oranssi/opt_tools.py:424-471", "oranssi/opt_tools.py:653-671", "oranssi/opt_tools.py:744-773", "experiments_paper/tfim_su8_linesearch.py:19-43", "experiments_paper/tfim_su4_linesearch.py:20-57"]}
{"id": "C129", "title": "Exactly when the line search raises the cost", "statement": "Let H0, H+, H- be the costs rotosolve samples along a direction of length k >= 1. The returned circuit has a higher cost than the given one if and only if H+ < H-, H+ + H- <= 2 H0 and, with x = (2 H0 - H+ - H-)/(H- - H+), 2 arctan(x / tan(pi/2^(k+1))) - arctan(x)/2^(k-1) < pi - 3 pi/2^k. For every k >= 2 this means x < tau for one threshold tau > 0 that depends on k only.", "quantifier": "all circuits, observables, involutions as directions, lengths k >= 1", "why_tests_cant": "whether the cost grows depends on real-valued costs; samples of circuits cannot give an exact criterion", "anchors": ["oranssi/opt_tools.py:1272-1305"]}
{"id": "C130", "title": "eigenstate_perturbation.py: the files and the markers of the perturbed steps", "statement": "Both calls of eigenstate_perturbation.py succeed and both figures are saved. A marker is drawn for every perturbed step p, at index p of the costs, 4 <= p < 100, and the index exists. The marker stands one step too early: the random matrix of step p changes no cost up to and including index p+1, which is the cost measured last before the perturbation; the two costs differ by at most the tolerance plus 1e-5 of the cost.", "quantifier": "all random matrices, all eigendecompositions; the statement about the costs for all circuits, observables and arguments", "why_tests_cant": "which costs a random perturbation can change is a statement about all pairs of runs", "anchors": ["experiments_paper/eigenstate_perturbation.py:13-118", "oranssi/optimizers.py:181-218"]}
{"id": "C131", "title": "eigenstate_perturbation.py: the picture of the unperturbed diagonalization", "statement": "The left picture of eigenstate_perturbation.py, titled 'Unperturbed diagonalization', shows the real part of U^dagger H U for the unitary U of the unperturbed run. It is diagonal for every number of steps, step size and tolerance, whether the run has converged or not. U^dagger H U itself is never diagonal: the entry (1,3) is i. Two of the numbers on the diagonal of the picture are 0 and -2 for every run, and neither is an eigenvalue of H. The circuits of the run have a closed form with one angle.", "quantifier": "all numbers of steps, step sizes, tolerances and eigendecompositions", "why_tests_cant": "one picture looks right; that it would look right for any run is visible only from the closed form", "anchors": ["experiments_paper/eigenstate_perturbation.py:41-45", "experiments_paper/eigenstate_perturbation.py:58-60", "oranssi/optimizers.py:181-194"]}
{"id": "C132", "title": "red_blue_comparison.py: the curves lie on their landscapes; the labels count one step too many", "statement": "red_blue_comparison.py runs to the end and saves its two figures. In the first, both curves start at (pi/5, pi/3), have one point per cost of their run, and lie on the drawn landscape at the height of the costs: exactly where phi is not 0, and within 0.0022 where an angle just below 2 pi was replaced by 0. In the second, the curve starts at (pi/3, pi/5), has one point per cost and lies on the landscape at exactly the height of the costs. The labels 'k = ...' at the last points are the number of costs, one more than the number of steps taken; with all 100 steps they read 101.", "quantifier": "all eigendecompositions and gradient-descent steps that satisfy their contracts", "why_tests_cant": "agreement of curve and landscape is a statement about every state of a run, up to the branch of the angles", "anchors": ["experiments_paper/red_blue_comparison.py:15-174", "oranssi/plot_utils.py:13-73"]}
{"id": "C133", "title": "red_blue_comparison.py: the solid curve of the first figure jumps across the figure", "statement": "In the first figure of red_blue_comparison.py the solid curve is drawn through the angles (phi, theta) of the states, with phi in [0, 2 pi). Among its first 42 points there are two consecutive ones with phi < pi/2 for the first and phi > 3 pi/2 for the second, so the line between them crosses the figure, although the x and the y coordinates of the two points on the sphere differ by at most 0.063.", "quantifier": "all eigendecompositions and gradient-descent steps that satisfy their contracts", "why_tests_cant": "the picture is not inspected by any test; the jump follows from following the run until the second expectation changes sign, which it does before the run stops", "anchors": ["experiments_paper/red_blue_comparison.py:36-41", "experiments_paper/red_blue_comparison.py:75-110", "oranssi/plot_utils.py:13-73"]}
{"id": "C134", "title": "approximate_example.py shows exactly the two Pauli words it moves along, as mirror images", "statement": "experiments_paper/approximate_example.py runs to its last statement: for every exact SVD and every exact eigendecomposition it writes the figure simple_approximate_example. plot_su8_directions_individually draws, for two qubits and at least one circuit, exactly one curve for every Pauli word other than the identity whose derivative exceeds 1e-8 at some step, labelled with that word; it ends with a KeyError for every other number of qubits and with an IndexError without circuits. In the figure of the script there are exactly the curves YY and ZZ, negatives of each other at every step (0.7071 sin x_k and -0.7071 sin x_k with x_0 = pi/4 and x_(k+1) = x_k + 0.2828 sin x_k), and the inset shows sqrt(2)(1 + cos x_k), the cost minus the smallest eigenvalue -sqrt(2): positive, so fit for the logarithmic axis, and strictly decreasing; there are between 2 and 51 points.", "quantifier": "every list of two-qubit circuits and observables for the function; every exact SVD, every exact eigendecomposition and every random matrix for the script", "why_tests_cant": "The figure is only looked at; a test would have to compare curves of one numerical run, in which the thirteen derivatives that are exactly zero are rounding noise below the tolerance.", "anchors": ["experiments_paper/approximate_example.py:11-59", "oranssi/plot_utils.py:176-211", "oranssi/circuit_tools.py:147-171"]}
{"id": "C135", "title": "When one step of exact_lie_optimizer leaves every ground state, the costs stay away from the minimum by a fixed distance", "statement": "Let eta be between 0 and 1 and let the observables be given. There is a delta > 0 such that in no run of exact_lie_optimizer without perturbation (any circuit, any number of steps, any tolerance) two neighbouring costs are both within delta of the value E, if and only if no unitary of cost E is sent to cost E by one sweep over the observables. If the observables have a common eigenvector of cost E there is no such delta. For an observable C and two anticommuting involutions A, B, swept in the order A, C, B, where C commutes with both (the observables of toy_example.py), the condition holds at the ground state energy -1-sqrt(2) for every eta in (0, 1].", "quantifier": "every list of observables, every step size in [0,1], every circuit, every number of steps and tolerance, every exact eigendecomposition", "why_tests_cant": "A numerical run that stops short of the minimum could always be blamed on the tolerance or the number of steps; that no circuit and no number of steps helps is a statement about a compact set of unitaries.", "anchors": ["oranssi/optimizers.py:172-214", "oranssi/circuit_tools.py:10-35"]}
{"id": "C136", "title": "Neither curve of toy_example.py can converge to the dashed minimum", "statement": "experiments_paper/toy_example.py runs to its last statement and writes the figure two_observable_local_lie_optimizers_ps_nq_2_0.500. The dashed line lies at the smallest eigenvalue -1-sqrt(2) and is as long as the longer curve; both curves begin at cos(0.1)(cos 1.3 + cos 1.2 + sin 1.2) and have 2 to 41 points; the parameter-shift curve stays at or above -2.28 and the Lie curve at or above the line. The Lie curve does not settle on the line either: with a delta > 0 that depends on nothing, of two neighbouring points at least one is delta above the line, and this holds for every step size in (0,1], every circuit and every number of steps.", "quantifier": "every exact eigendecomposition, every exact gradient step; for the distance also every circuit, step size, number of steps and tolerance", "why_tests_cant": "The figure is only looked at, and the gap of the Lie curve is smaller than the width of the line.", "anchors": ["experiments_paper/toy_example.py:9-57", "oranssi/optimizers.py:172-214"]}
{"id": "C137", "title": "What the figure of zassenhaus.py shows", "statement": "The function that experiments_paper/zassenhaus.py runs saves one figure if its run succeeds and nothing if it raises. The curve is the distance of the costs from the smallest eigenvalue -1-sqrt(5) of the Hamiltonian and starts at the cost of the circuit at (0.2, 1.4); it has between 11 and 41 points. The dashed line called Minimum is drawn at the eigenvalue itself, which is negative, on a logarithmic axis, so it is never visible and the curve, which is nowhere negative, never comes within three of it. Every step has one marker, on the cost from which the step starts; the last cost has none; steps 4 and 5 of every six have the SU(8) colour and the labels are on the markers 0 and 4. In tfim_zassenhaus the flags for the labels are not set again before the second figure, so its markers have no labels.", "quantifier": "all valid eigensolvers and singular value decompositions, all set orders, gradient descents and perturbations; for the markers all lists of costs and phases; for tfim_zassenhaus all n >= 3", "why_tests_cant": "The picture is only looked at by a person; that a line is missing because of the sign of its value on a logarithmic axis, or that the legend of a second figure is empty, is not something that a test of the optimizer can notice.", "anchors": ["experiments_paper/zassenhaus.py:12-74", "experiments_paper/zassenhaus.py:148-168", "experiments_paper/zassenhaus.py:190-208"]}
{"id": "C138", "title": "The first step of zassenhaus.py raises the cost", "statement": "The first call of the Zassenhaus layer in experiments_paper/zassenhaus.py, at the circuit with the parameters (0.2, 1.4), selects the direction ZX on the qubits 0 and 2 and takes the cost from below 0.341 to above 0.75, although along that direction values below -0.84 are possible; so in every successful run the second cost exceeds the first by more than 0.4. The reason holds for every Pauli word on two qubits: the quarter-period shifts of the rotosolve step are wrong for two qubits, and if the slope is positive and more than (1+sqrt 2) times the amplitude of the cosine part then the step raises the cost.", "quantifier": "all set orders, eigensolvers, perturbations and arguments for the script; for the pair every Pauli-like P, every U and every list of observables", "why_tests_cant": "A test that looks at the end of the run sees a small cost; one that looks at one step needs the exact selection among 27 gradients and the exact least value along the direction to see that the step went the wrong way.", "anchors": ["experiments_paper/zassenhaus.py:12-37", "oranssi/opt_tools.py:750-775", "oranssi/opt_tools.py:1272-1310"]}
{"id": "C139", "title": "Runs with ZassenhausLayerV2 and the figure of two_observables_2_qubits_zassenhaus_v2", "statement": "On at least two qubits a run of approximate_lie_optimizer with a ZassenhausLayerV2 alone cannot fail if the arguments are valid and directions are not asked for; its circuits after the first are the ansatz with the angles fitted to the circuit before. In two_observables_2_qubits_zassenhaus_v2 (zassenhaus.py) the fitted function depends on the third angle theta of the circuit only, with its one zero at (0, 0, -0.4 sin theta), and the cost is 2 cos theta. If the minimiser never answers with a point worse than its start, every cost is above 0.8; if it finds the smallest value, the costs rise at every step towards 2, the largest cost of the ansatz, and the run has exactly 11 costs. Whatever the minimiser does, the script saves its figure: the curve shows the absolute values of the costs, between 0 and 2, with 11 to 41 points, and the dashed line 'Minimum' is at -1 - sqrt(2), below the axis.", "quantifier": "Every iteration order of the sets, every answer of the minimiser, every eigensolver, every stream of random matrices; for the statements about runs every number of qubits >= 2, circuit, observables and arguments.", "why_tests_cant": "The minimiser and the iteration order of sets are outside the program; a test sees one of each. That the costs rise is a statement about all steps.", "anchors": ["experiments_paper/zassenhaus.py:77-117", "oranssi/opt_tools.py:896-1020", "oranssi/optimizers.py:230-420"]}
{"id": "C140", "title": "How fast exact_lie_optimizer approaches an eigenstate of the sum of its observables", "statement": "Let the M observables be Hermitian with square 1 (such as Pauli words), H their sum, and the circuit unitary. One step of exact_lie_optimizer changes the cost by minus eta times the variance of H in the current state, up to an error of at most ||H|| (eta M)^2. Hence in a run without perturbation no step raises the cost by more than ||H|| (eta M)^2; among the circuits of the first j steps there is one in which the variance is at most 2 ||H||/(eta j) + ||H|| eta M^2, and its cost is as close to an eigenvalue of H as the root of this; and a run that stops early with tolerance tol does so at a cost c that differs from an eigenvalue of H by at most the root of (tol + 1e-5 |c|)/eta + ||H|| eta M^2.", "quantifier": "Every number of qubits, every list of such observables, every circuit of unitary gates, every step size, tolerance and number of steps, every valid eigensolver.", "why_tests_cant": "An estimate for all step sizes and all states; it also says how large the error can get, which a finite number of runs cannot.", "anchors": ["oranssi/optimizers.py:180-232", "oranssi/circuit_tools.py:1-60"]}
{"id": "C141", "title": "parameter_shift_optimizer descends at a rate set by its circuit", "statement": "For a circuit of fixed unitary gates and rotations exp(theta_i G_j), in which a parameter may drive several rotations, let K be the sum over the parameters of the squared total norm of the generators that they drive, and H the sum of the observables. A gradient step with step size eta changes the cost by -eta |grad|^2, up to 2 ||H|| K eta^2 |grad|^2. So with eta at most 1 / (4 ||H|| K) no step raises the cost; among the parameters of the first j steps there are some with |grad|^2 <= 4 ||H|| / (eta j); and a run that stops early, at the tolerance t, does so where |grad|^2 <= 2 (t + 1e-5 |c|) / eta. For the circuit of tfim_su4_linesearch.py on n qubits eta <= 1 / (2 n^4) suffices.", "quantifier": "every number of qubits, circuit of this form, observables, number of parameters and start, small enough step size, number of steps, and tolerance", "why_tests_cant": "The bound is uniform in the circuit and in the start, and it is about derivatives of the cost, which the optimizer does not return. Runs show a descent for the circuits that were run.", "anchors": ["oranssi/optimizers.py:13-97", "experiments_paper/tfim_su4_linesearch.py:17-33"]}
{"id": "C142", "title": "The training of an AdaptVQELayer never raises the cost while the circuit is small", "statement": "Let H be the sum of the Hermitian observables of an AdaptVQELayer, and let the layers of the object, with the one that a call selects, have together at most P rotations (n for a layer of single qubits, (n+1)/2 for a layer of bonds). If ||H|| P <= 100, every one of the at most 40 gradient steps of size 0.01 of the call lowers the cost by 0.005 times the squared gradient at least. So the circuit returned costs no more than the one the training begins with (the parameters given, 0.1 in the new row), and the difference is at least 0.005 times the sum of the squared gradients met. If the training stops before its 40th step, it makes four steps at least and |grad|^2 <= 0.002 (1 + |c|) before the last one. For sums of Pauli words the condition holds while terms times qubits times layers is at most 100.", "quantifier": "every number of qubits from two on, Hermitian observables, history of the layer object, table of parameters with enough rows, and circuit given", "why_tests_cant": "The optimizer checks nothing of the kind: with more rotations or a larger Hamiltonian the same step size can raise the cost. Runs show one Hamiltonian each, and the gradients are not returned.", "anchors": ["oranssi/opt_tools.py:529-590", "oranssi/optimizers.py:13-97"]}
{"id": "C143", "title": "A call of an AdaptVQELayer raises the cost by no more than its new layer at the angles 0.1", "statement": "Let an AdaptVQELayer be given the circuit of its own layers together with the parameters of that circuit, as the call before returned them, for Hermitian observables with sum H, and let ||H|| times the number of rotations be at most 100 (C142). Then the call returns again the circuit of its layers, one more, with its parameters, and the cost of that circuit is at most cost(U) - 0.05 G + 0.005 ||H|| p^2, where p is the number of rotations of the layer selected and G is the sum of the gradients along them. The layer is selected for the sum of the absolute values of the gradients, but started with the same sign 0.1 for all of them.", "quantifier": "every number of qubits from two on, Hermitian observables, history of the layer object, and parameters", "why_tests_cant": "The cost before the training is not recorded by the layer. Runs show the cost after each call for one Hamiltonian.", "anchors": ["oranssi/opt_tools.py:529-590", "oranssi/optimizers.py:13-97"]}
{"id": "C144", "title": "An AdaptVQELayer leaves a ground state", "statement": "For the observables -X on each of n qubits the circuit of Hadamard gates, with which the layer begins, has the smallest possible cost -n. The circuit of the first call has it too. The second call returns a circuit with cost -n cos(x) for some x between 0.06 and 0.1, which is larger: all gradients vanish, so the rotations about Y are selected for being the first that are allowed, they begin at 0.1, and the at most 40 steps of size 0.01 do not undo them. So a run of approximate_lie_optimizer with this layer, of two steps at least, reports the costs -n, -n, -n cos(x), whatever its other arguments are.", "quantifier": "every number of qubits from two on", "why_tests_cant": "It takes an input that is already optimal, two calls in sequence, and a comparison with the cost before the call, which the layer does not make.", "anchors": ["oranssi/opt_tools.py:529-590", "oranssi/optimizers.py:13-97"]}
{"id": "C145", "title": "What the printed table of layers says", "statement": "Before it runs, approximate_lie_optimizer prints a header and, for every layer in the order of the list, one row; no other line but dashes. Read at the bars, the row of a LocalLieAlgebraLayer gives its group SU(2) or SU(4), its stride, its Trotter flag printed as 1 or 0, and its directions in order; two such layers on the same observables with the same step size and check flag and the same row are equal. The rows of the other layers show their name, no stride and the flag; the stochastic, squared and AdaptVQE layers list all twelve directions, and CustomDirectionLieAlgebraLayer names a direction once for every operator. Rows do not tell everything apart: the SquaredLieAlgebraLayer and the StochasticLieAlgebraLayer made from the same arguments print the same row, and two layers whose rows differ only in the stride act alike. The bars of a row stand below those of the header never for the local, stochastic and squared layers, always for AdaptVQELayer, exactly up to 9 qubits for CustomDirectionLieAlgebraLayer, up to 13 for the Zassenhaus layers and up to 29 for SU8_AlgebraLayer.", "quantifier": "All numbers of qubits, observables, constructor arguments, lists of layers.", "why_tests_cant": "The comparison is between all pairs of layers; a test compares a few printed strings.", "anchors": ["oranssi/optimizers.py:323-328", "oranssi/opt_tools.py:203-207", "oranssi/opt_tools.py:297-301", "oranssi/opt_tools.py:367-372", "oranssi/opt_tools.py:473-478", "oranssi/opt_tools.py:594-599", "oranssi/opt_tools.py:673-678", "oranssi/opt_tools.py:886-890", "oranssi/opt_tools.py:1020-1024"]}
{"id": "C146", "title": "How far the angles of an AdaptVQELayer move in a call", "statement": "In a call of an AdaptVQELayer no angle moves by more than 0.4 times the norm of the total observable H: not the angles it is given, and not the angles of the new layer, which begin at 0.1. So for ||H|| < 1/4 the angles of the new layer are all positive when the call returns, also when the cost falls in the other direction. For Hermitian observables and layers with at most 100/||H|| rotations, the squared distance by which the table of angles moves is at most 0.8 times the amount by which the training lowers the cost.", "quantifier": "All numbers of qubits >= 2, observables, histories of calls, tables of parameters, circuits; gradient descent as PennyLane specifies it.", "why_tests_cant": "A statement about all runs of the inner optimizer; a test sees the angles of one run.", "anchors": ["oranssi/opt_tools.py:529-592", "oranssi/optimizers.py:13-97"]}
{"id": "C147", "title": "TeX labels of Pauli operators", "statement": "In the picture of an algebra graph two nodes have the same label exactly when their monomials have the same coefficient and the same letters on the same sites; nodes with equal labels denote the same operator. The TeX text of a single Pauli operator shows coefficient, letter and site, except that an identity does not show its site: the texts of two Pauli operators are equal exactly when coefficient and letter agree and, for a letter other than the identity, the site.", "quantifier": "All monomials and Pauli operators whose coefficients are among numbers that Python formats without spaces and differently from one another.", "why_tests_cant": "The claim compares all pairs of operators.", "anchors": ["oranssi/pauli.py:62-73", "oranssi/pauli.py:89-91", "oranssi/pauli.py:188-193", "oranssi/pauli.py:210-215", "experiments_paper/algebra_graphs.py:104-105"]}
{"id": "C148", "title": "plot_difference: parameter shift in closed form, and when it agrees with the exact optimizer", "statement": "For the circuit RY(a) RZ(b) with the observable X, the angles a + b - pi/2 and a - b - pi/2 each follow x -> x + eta sin x, and the parameter-shift cost is the mean of their cosines. Every step goes down, the costs approach -1 from every start with cos(a + b) and cos(a - b) not zero, and stay at or above 0 if sin(a + b) = 1 or sin(a - b) = 1. With equal positive step sizes the exact and the parameter-shift costs are equal at every common step if cos(a) sin(b) = 0, and otherwise the exact cost is strictly smaller at every common step from k = 1 on.", "quantifier": "all parameter lists with at least two entries, step sizes in [0, 1], tolerances, numbers of steps, return flags, gradients", "why_tests_cant": "plot_difference runs one start and one eta; that the curves differ at every step exactly for these starts, and the limit, concern all of them.", "anchors": ["experiments/single_qubit_ps_comparison.py:165-215", "oranssi/optimizers.py:13-97", "oranssi/optimizers.py:100-221"]}

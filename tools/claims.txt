C01 proved
  C01_full_operator_entries
# k >= 1 because an empty wire tuple raises

C02 proved
  C02_full_operator_star_hom

C03 proved
  C03_disjoint_wires_commute

C04 proved
  C04_kron_product C04_all_wires_identity C04_word_is_tensor_product

C05 partial
  C05_rejects_partial C05_repeated_wires_accepted C05_negative_wire_transposes C05_transpose_differs
# The full statement is false: repeated wires and negative wires are accepted (proved). Everything else that is invalid is rejected (C05_rejects_partial).

C09 proved
  C09_pauli_words C09_su2_su4_cases

C10 proved
  C10_pauli_basis C10_pauli_basis_no_identity

C11 proved
  C11_operator_2_norm

C06 proved
  C06_compiled_circuit

C07 proved
  C07_param_shift_comm

C08 proved
  C08_hamiltonian_value C08_hamiltonian_default C08_too_few_coeffs C08_hamiltonian_hermitian C08_hamiltonian_additive

C12 proved
  C12_directions

C13 proved
  C13_directions_vanish_iff_eigenvector

C14 proved
  C14_pauli_mul

C15 proved
  C15_constructor C15_monomial_mul C15_monomial_mul_assoc C15_order_independent

C16 proved
  C16_commutes_with

C17 proved
  C17_commutator

C18 partial
  C18_nested_is_plain_product C18_nested_commutator_wrong
# False as stated: the product of a commutator with a monomial is the plain product (the factor 2 and the vanishing are stored in coeff only, which multiplication ignores); concrete wrong nested commutator proved.

C19 partial
  C19_monomial_eq_hash_partial C19_pauli_hash_inconsistent
# Holds for PauliMonomial; false for Pauli (equal Paulis with different coefficients hash differently), proved with a witness.

C20 partial
  C20_real_strict_order_partial C20_lt_not_asymmetric C20_lt_ignores_sites
# False in general: with a complex coefficient __lt__ is not asymmetric, and sites are ignored. Strict order on the real-coefficient monomials proved.

C21 partial
  C21_add_value_partial C21_add_no_duplicates C21_add_mutates_operand
# The value part holds for all sums; "leaves a and b unchanged" is false when words repeat (witness) and true when they do not.

C22 partial
  C22_sub_value_partial C22_sub_negates_operand C22_sub_self
# The value is right for operands sharing no object; the right operand is always negated in place, and a - a denotes -2a.

C23 partial
  C23_mul_value_partial C23_mul_ops C23_mul_ignores_scalar C23_mul_rejects
# True for freshly built monomials whose products have one length; false after scalar_mul and rejected for differing lengths (both proved in general).

C24 partial
  C24_simplify_value C24_simplify_unique_words_partial C24_complex_leaves_duplicates
# Value part proved for all inputs; at most one term per word proved for all-real sums, false when real and complex coefficients are mixed (witness).

C25 partial
  C25_conj_partial C25_conj_stale_coeff
# The Paulis of the monomial are conjugated, the attribute coeff is not; exact condition and witness proved.

C26 proved
  C26_key_round_trip C26_to_oranssi

C57 proved
  C57_terminates
# For every graph, stream of random choices and limits there is an iteration budget beyond which no loop runs out.

C58 proved
  C58_verdict
# For every graph without self-loops.

C59 proved
  C59_no_crash

C60 partial
  C60_disjoint_partial C60_disjoint_when_coloured_partial C60_odd_ring_overlaps
# True for bonds without odd cycle and at most two neighbours per qubit, and whenever the colouring succeeds; false for odd rings (witness).

C61 proved
  C61_subset
# Up to the orientation of a bond, which get_commuting_set may swap.

C62 partial
  C62_returns_partial C62_degree_four_fails C62_degree_three_fails
# True with at most two neighbours per qubit. False beyond: four neighbours always raise KeyError; three with none of exactly two always raise KeyError or IndexError.

C27 proved
  C27_su2 C27_su4 C27_su8

C28 proved
  C28_local C28_custom
# For every eta (also one set with set_eta). The call itself raises ValueError only when there is no direction to sum and trotterize is off.

C29 proved
  C29_local C29_custom

C30 partial
  C30_unitary_kept_partial C30_nonunitary_kept C30_projection_would_help C30_layer_returns_nonunitary
# The condition of the check is inverted: unitary updates are projected (a no-op), non-unitary ones are never projected. Refuted for the check and for a whole layer.

C31 proved
  C31_directions

C32 partial
  C32_stride_checked_partial C32_stride_ignored
# False: stride is validated but never used.

C33 partial
  C33_explicit_partial C33_none_raises C33_none_constructs
# False: with directions=None every call raises TypeError. Listing all directions explicitly works.

C34 partial
  C34_always_raises C34_constructs C34_empty_table C34_step
# False: get_random_direction_and_qubits raises NotImplementedError, so every call fails. The constructor also leaves the table of operators empty, so the loop would raise a KeyError for any drawn direction; with the table filled the loop would return and go downhill (C34_step).

C56 proved
  C56_local C56_custom C56_single

C35 proved
  C35_squared
# Over every history of successful calls. IsRotoStep says what the returned circuit is.

C36 proved
  C36_su8 C36_small

C37 proved
  C37_rotosolve_optimal

C38 partial
  C38_not_increasing_partial C38_increases C38_squared_raises_cost
# False: for a direction on k >= 2 qubits the cost is sampled at angles scaled by 1/2^k, so the angle formula is not the minimiser and the cost can grow. The case k = 1 is C37; for k >= 2 the partial theorem gives the cases in which the cost does not grow.

C39 proved
  C39_adapt C39_one_qubit
# For n >= 2; on one qubit every call raises KeyError.

C40 partial
  C40_circuit_partial C40_extends_partial C40_ignores_circuit
# False: the returned circuit is rebuilt from Hadamards and the layer's own rotations; the circuit passed in only enters the choice of the new layer.

C41 proved
  C41_schedule C41_reported
# C41_reported ties the values reported by approximate_lie_optimizer to the calls actually executed.

C42 proved
  C42_pairs C42_su8_call
# For the default add_su2 = False (the SU(4) dictionary then holds pairs only).

C43 partial
  C43_fails_at_eigenstates C43_refuted C43_succeeds_iff_partial C43_su4_partial
# False: without a candidate k_max is never assigned and the call raises UnboundLocalError; this happens at every eigenstate of the observable. The partial theorem says exactly when a call succeeds.

C44 proved
  C44_trace C44_succeeds_iff
# Observables and circuit gates on distinct in-range wires.

C45 proved
  C45_first_flat_step

C46 partial
  C46_refuted C46_exact_bound_partial C46_parameter_shift_bound_partial C46_approx_bound_partial
# False: numpy.isclose adds 1e-5 times the last cost to tol, so a run can stop early with a change above tol (even with tol = 0). The true bound is tol + 1e-5*|previous cost|.

C47 proved
  C47_riemannian_step C47_unitary C47_derivative

C48 partial
  C48_refuted C48_without_perturbation_partial C48_last_step_not_flat_partial
# False: a perturbation at the last step changes the unitary after the cost is stored. True without perturbation, and when the last step is not flat.

C49 proved
  C49_exact C49_exact_needs_perturbation C49_perturbation_unitary C49_approx C49_approx_without C51_no_tolerance
# With tol=None the approximate optimizer never calls a step flat (C51_no_tolerance).

C52 proved
  C52_exact C52_parameter_shift C52_approx
# For the parameter-shift optimizer return_params must be a bool or a non-negative integer (see C69).

C55 proved
  C55_trace C55_succeeds_iff

C68 proved
  C68_one_qubit_run C68_one_qubit_descends

C69 partial
  C69_return_params_not_checked C69_negative_flag
# False: return_params is never checked. A value that is not a number runs to the end and then raises TypeError, and return_params = -1 drops the requested states.

C50 proved
  C50_trace C50_empty_layers C50_succeeds_iff C50_total_layers

C51 proved
  C51_first_flat_step C51_no_tolerance

C53 partial
  C53_refuted
# False: the list is never appended to, it is empty for every run. Nothing of the property remains.

C54 partial
  C54_refuted C54_no_directions C54_greedy_layers_partial
# False for the local, custom and stochastic layers, which replace their observables by matrices: AttributeError. True for the squared, Adapt, SU(8) and Zassenhaus layers.

C63 proved
  C63_pure_state

C64 partial
  C64_refuted
  C64_poles
  C64_round_trip_partial
# False as stated: an angle phi within 1e-3 + 2e-5*pi below 2*pi is returned as 0 (C64_refuted). The partial theorem proves the round trip for all other angles; C64_poles says what happens at theta = 0 and theta = pi.

C65 proved
  C65_locality_curves
  C65_other_calls

C66 partial
  C66_joined
  C66_refuted_file
  C66_refuted_concurrent
  C66_sequential_partial
  C66_concurrent_partial
  C66_one_succeeds_partial
# False as stated in two ways: a file with the name of the directory makes the function return without a directory, and two concurrent callers can interleave so that one gets FileExistsError. The partial theorems prove the claim for one caller when no file is in the way (and NotADirectoryError otherwise), and for any number of callers and every interleaving that the directory exists when a caller has finished, that FileExistsError is the only exception and only occurs with overlapping paths, and that one caller of each path succeeds.

C67 partial
  C67_constructors
  C67_exact
  C67_parameter_shift
  C67_approx_rejects
  C67_approx
  C67_set_eta_unchecked
# True for all constructors and optimizers; false for the methods set_eta of the layers, which check nothing (C67_set_eta_unchecked).

C70 partial
  C70_refuted
  C70_pure_states_partial
# False for states with phi just below 2*pi, which are reported with phi = 0. The partial theorem proves it for all other pure states.

C71 partial
  C71_refuted
  C71_two_qubits_partial
# False: the function looks up the word XX, which is a key only for two qubits. The partial theorem proves the curves for two qubits.

C72 proved
  C72_approx
  C72_exact

C73 proved
  C73_approx
  C73_exact
  C73_parameter_shift

C74 partial
  C74_result_partial
  C74_order_partial
  C74_disjoint_partial
  C74_succeeds_partial
  C74_two_qubits
  C74_needs_optimizer
  C74_reversed_bond_raises
# False as stated: C74_reversed_bond_raises exhibits a layer on three qubits whose second call, with commute=True, raises KeyError for some random choices, because networkx reports a bond in descending order and the Pauli dictionary only has ascending ones. Proved: the full description of every successful call (terms, near-maximality, angles, circuit, unitarity); independence of the order when the qubits are disjoint; disjointness when the near-maximal bonds form no odd cycle and have degree at most 2; success when the near-maximal bonds do not overlap (always on one or two qubits); an exception without optimizer.

C75 proved
  C75_custom
  C75_custom_trotter
  C75_local
  C75_all_directions
  C75_agrees
  C75_runs
# Exact arithmetic. For the local layer with trotterization see C28/C29 for the factors. Costs of the two runs are compared at every step both reach, since their stopping rules differ.

C76 proved
  C76_costs
  C76_first
  C76_descends
  C76_limit
  C76_stationary
# The closed form of one step is proved from the matrix exponential of the commutator (cost_involution_step). The number of steps in C76_limit does not depend on the number of qubits, the circuit or the observable. A run may of course stop before, by nsteps or by the tolerance.

C77 proved
  C77_nearest
  C77_unique
  C77_svd_irrelevant
  C77_singular
# numpy.linalg.svd is a parameter with its contract (ValidSvd). That the layers only call the projection on matrices that are unitary already is C30.

C78 proved
  C78_adapt_step
# Gradient descent is a parameter (any function); C79 adds its contract. The number of steps, 40, is the default of parameter_shift_optimizer, which the layer does not override.

C79 proved
  C79_parameter_shift
  C79_training
  C79_foreign_rows
  C79_runs_succeed
# PennyLane's GradientDescentOptimizer is a parameter with its contract (ValidGd; exists_validGd shows that it can be met). C79_foreign_rows: with two AdaptVQELayer objects in one pattern, the row an object appends for its new layer is not the one that layer uses, and stays at 0.1.

C80 proved
  C80_constructor
  C80_terms
  C80_third_order
  C80_call
  C80_one_qubit
# scipy's Nelder-Mead minimiser is a parameter (any function). sympy expressions are modelled as complex multiples of products of the three symbols, which are all that occur. The gates use half the fitted angles, in reverse order, after Hadamard gates.

C81 partial
  C81_partial
  C81_discards_circuit
  C81_refuted
  C81_uphill
# False. C81_discards_circuit: all circuits preparing eigenstates of the observable are mapped to the same circuit (the layer starts again from the identity). C81_refuted: for all Hermitian observables, all minimisers and all unitaries G(x) determined by the fitted parameters x, some circuit U is not mapped to G(x) U, not even as a state and up to a factor. C81_uphill: with an exact fit the cost increases along the fitted vector, at the rate eta times the sum of the squared gradients (the sign of the fitted vector is wrong). C81_partial: the returned circuit is unitary and depends on the given one only through its five gradients.

C82 proved
  C82_exact
  C82_approx
  C82_call
# Nothing is assumed about the gates, observables, arguments or external functions.

C83 proved
  C83_exact
  C83_approx
  C83_products
# ValidEigh and ValidSvd are the contracts of numpy.linalg.eigh and numpy.linalg.svd; exists_choices shows that different functions meet them.

C84 proved
  C84_exact
  C84_approx
  C84_eta
  C84_parameter_shift
# return_omegas can raise (C54), so it is not newly set. C84_eta shows that eta of approximate_lie_optimizer is only used by the perturbation: the step sizes are those of the layers. For parameter_shift_optimizer the flag return_params is a bool (0 or 1), see C69 for other values.

C85 proved
  C85_constructors
  C85_approx
  C85_approx_order
  C85_parameter_shift
  C85_exact_order_matters
# C85_exact_order_matters is the negative half of the claim: one step for Z, X and for X, Z on one qubit gives different costs.

C86 proved
  C86_exact
  C86_approx
# Greedy layers are not covered: their rotosolve step may leave an eigenstate that is not a minimum. The step alone for the local and custom layers is C29.

C87 proved
  C87_digraph
  C87_digraph_empty
  C87_two_generators
# The generated Lie algebra is that of the words themselves (with real or imaginary coefficient), not of i times the words; see C89 for the difference.

C88 proved
  C88_generators
  C88_main

C89 partial
  C89_refuted
  C89_two_generators_partial
# The claim as stated is false of the code (C89_refuted: six nodes, dimension three). It holds for two generators.

C90 proved
  C90_graph
  C90_graph_empty
  C90_graph_other_length

C91 proved
  C91_parameters
  C91_costs
  C91_plot_equal

C92 proved
  C92_distance
  C92_steepest

C93 proved
  C93_costs
  C93_dominates
  C93_strict

C94 proved
  C94_exact

C95 proved
  C95_call
  C95_approx
# For layers that have at least one operator or are trotterized; the others raise or do nothing (C28).

C96 proved
  C96_hamiltonian
  C96_minimum
  C96_stuck
  C96_script

C97 proved
  C97_unitary
# Exact arithmetic; np.allclose with its default tolerances is modelled.

C98 proved
  C98_gradients
  C98_outside
# C98_outside: outside the ball the script stores zeros.

C99 partial
  C99_refuted C99_entry_partial
# False: the script sets rho_0[1, 0] instead of rho_0[0, 0]. Proved instead, for all points: the entry is the derivative of the cost along a Y rotation of the initial state, and entry^2 + cost^2 <= 2, so that the minimum -sqrt(2) of the entries is at circuits of cost 0.

C100 partial
  C100_level_partial C100_line_partial C100_refuted
# False on the line r3 = -r4, where the division by r3 + r4 lost the sphere equation: the grid of the script meets it, with heights up to 49/4. Proved: the claim off the line, and the exact value and criterion on the line and at the origin.

C101 proved
  C101_local
  C101_custom
  C101_single
# ||H|| is the l2 operator norm of Mathlib (largest absolute eigenvalue for a Hermitian matrix).  Floating point is replaced by exact arithmetic.

C102 proved
  C102_steps
  C102_run
# Single observable, because with several observables the update is a product of non-commuting factors and the remainder of C101 is not bounded by the gradients of the sum.

C103 partial
  C103_costs
  C103_smallest
  C103_refuted_ground
  C103_refuted_limit
  C103_bias_partial
# False as stated. The loop over the observables updates the unitary after each of them, with the state the update before has left. C103_costs gives every run with two anticommuting involutory observables in closed form. C103_refuted_ground: a run that starts at the smallest cost, -sqrt 2, leaves it in the first step for every step size. C103_refuted_limit: every run whose first state is inside the disc a^2 + b^2 < 1 converges to a value above -sqrt 2. What holds instead is C103_bias_partial: the limit lies between -sqrt 2 cos(sqrt 2 eta / 4) and -sqrt 2 cos(eta / 2), so the excess is of second order in eta. First states on the rim a^2 + b^2 = 1 other than the ground state are covered by C103_costs only.

C104 partial
  C104_one_angle
  C104_minimum
  C104_refuted_reach
  C104_partial
# False as stated. The Hadamard gates prepare a state on which the two X rotations only act as a phase, so of the three fitted angles only the third one matters (C104_one_angle, for every list of observables). For the script's observables the cost is 2 cos of that angle, at least -2 (C104_refuted_reach), while the line the script draws, -1 - sqrt 2, is the smallest cost of all circuits and is attained by one (C104_minimum). What holds: the layer's circuits do reach -2 (C104_partial).

C105 partial
  C105_sums
  C105_refuted
  C105_terms_partial
# False as stated. For all Pauli monomials and any number of calls the terms of order 2 sum to [X,Y], twice what the series has, and those of every higher order sum to 0 (C105_sums); for monomials that do not commute the order 3 of the series is not 0 (C105_refuted). The list of order 2 holds both [X,Y]/2 and [Y,X]/(-2), and a nested commutator starts from the plain product of its predecessor (C18), so the two families cancel from order 3 on. What holds: each single term of order 2 is right, and each term of order 3 is right up to its sign (C105_terms_partial).

C106 proved
  C106_custom
  C106_local
  C106_sum_only
  C106_one_letter
# The coefficients are read off the state of the circuit with which the call starts, for all observables and directions, so they add up; commuting exponents then join to one exponential. C106_one_letter gives a condition on the strings that works for every number of qubits; C107 has one that is special to two qubits.

C107 proved
  C107_call
  C107_call_one
  C107_costs
  C107_one_direction
  C107_descends
  C107_limit
  C107_smallest
# Stated for every first state exp(-i theta/2 ZZ)|++> up to a phase, theta = pi/4 - x; the script is x = pi/4, eta = 0.1 (the layer's default; the eta passed to the optimizer only matters for perturbations). Descent and limit need 0 < x < pi.

C108 proved
  C108_costs
  C108_params
  C108_descends
  C108_stops
  C108_stationary
  C108_limit
  C108_stuck
# ValidGdList is the trusted statement about pennylane's gradient descent step (C55). C108_stuck shows that the hypothesis of C108_limit is needed.

C109 partial
  C109_points_partial
  C109_refuted
# False as stated: in the run of the script (eta 0.05, 100 steps, tolerance 1e-3, start pi/3, pi/5) there is a step at which the first parameter moves by less than 0.08 and the drawn point moves from below 0.08 to above 6.2 (C109_refuted). What holds: every drawn point lies in the plotted square and the landscape has there the height of the cost (C109_points_partial).

C110 partial
  C110_cost
  C110_partial
  C110_refuted
# False as stated: whatever gradient, start and arguments, no cost of the parameter-shift run is below -2.28, and the drawn minimum is below -2.4 (C110_refuted). What holds: the cost formula (C110_cost) and that -sqrt 5 is reached (C110_partial).

C111 proved
  C111_squared
  C111_su8
  C111_run
  C111_leaves
# C111_leaves shows that the condition on the gradients is needed. In C111_run the condition is that two directions have a gradient, since the squared layer leaves out the direction taken before.

C112 proved
  C112_run
# In the later steps the condition on the gradients stays a hypothesis here; C117 removes it.

C113 proved
  C113_eigenvalue
  C113_drawn
  C113_run
# The products of integer matrices in the proof are checked by kernel reduction (decide +kernel); they are about one fixed matrix, the claim about all runs follows from C73.

C114 proved
  C114_call
  C114_run
# The condition that two layers (about different words) have a gradient is needed since the layer leaves out the word taken before and takes the first candidate where all gradients vanish.

C115 proved
  C115_first
  C115_run
# In the later steps the condition on the gradients stays a hypothesis here; C117 removes it.

C116 proved
  C116_first
  C116_untrained
  C116_run

C117 proved
  C117_call
  C117_su8
  C117_run
  C117_tfim
# Removes the condition on the gradients from C111 and C112 for symmetries with letters I and X on the first three qubits. Adaptive layers are not covered, there the condition is needed for the second candidate.

C118 proved
  C118_step
  C118_uphill
# The example does not depend on which of the two admissible directions is met first.

C119 proved
  C119_anti
  C119_commute
  C119_sign
  C119_x1
  C119_x0
  C119_closeness2
# The three-angle comparison of closeness_1 is treated on the two slices x0 = 0 and x1 = 0, where the exponent squares to a multiple of the identity.

C120 partial
  C120_swapped_partial
  C120_refuted
# Refuted for the grid of the script. True part, for every size: the printed list is the point of the first smallest entry with its first two coordinates exchanged.

C121 proved
  C121_run
  C121_state
  C121_first

C122 proved
  C122_ansatz
  C122_index
  C122_period
  C122_even
  C122_cost

C123 proved
  C123_critical
  C123_succeeds
  C123_stuck
  C123_zero
# the gradient step of PennyLane is a contract (ValidGdList).

C124 proved
  C124_grad
  C124_exact
  C124_call
  C124_approx
  C124_run
# Stated for the antiunitary symmetry "conjugate, then apply the Pauli word w"; the empty word gives reality. Example with a symmetry that is not just conjugation.

C125 proved
  C125_odd
  C125_run
  C125_bond
  C125_figure
  C125_script
# The condition of two directions with a gradient is the one of C111 and C112; it holds for the initial circuit, so the claims always hold for the second one.

C126 proved
  C126_su8
  C126_adapt
  C126_su4
  C126_zass
# tfim_zassenhaus is described for runs that raise and for runs that do not; which of the two happens depends on the gradients met (C43).

C127 proved
  C127_bond
  C127_word
  C127_curve
  C127_total
  C127_figure

C128 proved
  C128_call
  C128_run

C129 proved
  C129_exact
  C129_threshold
# Together with C38_not_increasing_partial this settles for which sampled costs C38 holds.

C130 proved
  C130_causal
  C130_script
# Finding: `perturbations` holds the index of the loop, not the index of the cost measured last.

C131 proved
  C131_run
  C131_picture
  C131_cost
# Finding: the title of the picture promises a diagonalization that has not taken place.

C132 proved
  C132_script
# The script model contains the two runs, the points on the sphere, the landscapes on the 25 x 25 grids, the dots and the labels. Exact real arithmetic.

C133 proved
  C133_jump
# The pair of expectations follows the closed form of C103; the run is followed until the second expectation becomes negative. Exact real arithmetic.

C134 proved
  C134_individually
  C134_other_calls
  C134_script
# approximate_example.py to its last statement. The script theorem gives both drawn curves and the inset as functions of the step.

C135 proved
  C135_gap
  C135_sharp
  C135_criterion
  C135_common
  C135_trio
# The distance comes from compactness of the unitary group and is not computed. Exact real arithmetic.

C136 proved
  C136_never
  C136_script
# Finding: the curve of the Riemannian method cannot converge to the dashed minimum. toy_example.py to its last statement; left out are axes, colours, printing.

C137 proved
  C137_script
  C137_markers
  C137_second
  C137_tfim
# C137_script settles both outcomes of the run; that the run of these 40 steps succeeds is not claimed (C43: a Zassenhaus call may raise).

C138 proved
  C138_pair
  C138_call
  C138_run
# C138_run is about every run that succeeds (C43: a Zassenhaus call may raise); the first call always succeeds (C138_call), and an example gives a run of one step.

C139 proved
  C139_succeeds
  C139_run
  C139_fit
  C139_positive
  C139_exact
  C139_script
# The minimiser is an arbitrary function; NeverWorse and ExactMin are hypotheses about it, used where named. Nelder-Mead only approximates ExactMin.

C140 proved
  C140_step
  C140_run
  C140_stop
# Norms are operator norms. The estimate does not say which eigenvalue is approached (C135, C136: the smallest one may be out of reach).

C141 proved
  C141_step
  C141_run
  C141_stop
  C141_tfim
# The gradient step is the contract ValidGdList of pennylane's GradientDescentOptimizer. Norms are operator norms. Step sizes above the bound, such as the 0.01 of tfim_su4_linesearch.py on 4 qubits, are not covered by the runs, but by C141_step.

C142 proved
  C142_training
  C142_small
# The gradient step is the contract ValidGd of pennylane's GradientDescentOptimizer. Norms are operator norms. Nothing is said about the cost before the call: the new row of angles 0.1 may raise it.

C143 proved
  C143_call
# The gradient step is the contract ValidGd of pennylane's GradientDescentOptimizer. Norms are operator norms.

C144 proved
  C144_raises
  C144_run
# A finding about the program: a call need not lower the cost. The gradient step is the contract ValidGd.

C145 proved
  C145_table
  C145_reads
  C145_faithful
  C145_stride
  C145_same
  C145_shifted
  C145_fits
  C145_flags
  C145_operators
  C145_choices
# The centring of a format field and the printing of a bool as a number are Python's rules, stated in Model/Printing.lean.

C146 proved
  C146_reach
  C146_positive
  C146_distance
# The gradient step is the contract ValidGd of pennylane's GradientDescentOptimizer. Norms are operator norms. The hypotheses of C146_distance are those of C142_training, with the example given there.

C147 proved
  C147_label
  C147_pauli
  C147_identity
# Python's formatting of coefficients is a parameter: a function that is injective and free of spaces on the set of coefficients that occur. Coefficients that are sympy expressions may contain spaces and are not covered.

C148 proved
  C148_costs
  C148_descends
  C148_stuck
  C148_limit
  C148_agree
  C148_below

{
 "claims": [
  {
   "property": "C01",
   "status": "proved",
   "theorems": [
    "Oranssi.C01_full_operator_entries"
   ],
   "note": "k >= 1 because an empty wire tuple raises"
  },
  {
   "property": "C02",
   "status": "proved",
   "theorems": [
    "Oranssi.C02_full_operator_star_hom"
   ],
   "note": ""
  },
  {
   "property": "C03",
   "status": "proved",
   "theorems": [
    "Oranssi.C03_disjoint_wires_commute"
   ],
   "note": ""
  },
  {
   "property": "C04",
   "status": "proved",
   "theorems": [
    "Oranssi.C04_kron_product",
    "Oranssi.C04_all_wires_identity",
    "Oranssi.C04_word_is_tensor_product"
   ],
   "note": ""
  },
  {
   "property": "C05",
   "status": "partial",
   "theorems": [
    "Oranssi.C05_rejects_partial",
    "Oranssi.C05_repeated_wires_accepted",
    "Oranssi.C05_negative_wire_transposes",
    "Oranssi.C05_transpose_differs"
   ],
   "note": "The full statement is false: repeated wires and negative wires are accepted (proved). Everything else that is invalid is rejected (C05_rejects_partial)."
  },
  {
   "property": "C09",
   "status": "proved",
   "theorems": [
    "Oranssi.C09_pauli_words",
    "Oranssi.C09_su2_su4_cases"
   ],
   "note": ""
  },
  {
   "property": "C10",
   "status": "proved",
   "theorems": [
    "Oranssi.C10_pauli_basis",
    "Oranssi.C10_pauli_basis_no_identity"
   ],
   "note": ""
  },
  {
   "property": "C11",
   "status": "proved",
   "theorems": [
    "Oranssi.C11_operator_2_norm"
   ],
   "note": ""
  },
  {
   "property": "C06",
   "status": "proved",
   "theorems": [
    "Oranssi.C06_compiled_circuit"
   ],
   "note": ""
  },
  {
   "property": "C07",
   "status": "proved",
   "theorems": [
    "Oranssi.C07_param_shift_comm"
   ],
   "note": ""
  },
  {
   "property": "C08",
   "status": "proved",
   "theorems": [
    "Oranssi.C08_hamiltonian_value",
    "Oranssi.C08_hamiltonian_default",
    "Oranssi.C08_too_few_coeffs",
    "Oranssi.C08_hamiltonian_hermitian",
    "Oranssi.C08_hamiltonian_additive"
   ],
   "note": ""
  },
  {
   "property": "C12",
   "status": "proved",
   "theorems": [
    "Oranssi.C12_directions"
   ],
   "note": ""
  },
  {
   "property": "C13",
   "status": "proved",
   "theorems": [
    "Oranssi.C13_directions_vanish_iff_eigenvector"
   ],
   "note": ""
  },
  {
   "property": "C14",
   "status": "proved",
   "theorems": [
    "Oranssi.C14_pauli_mul"
   ],
   "note": ""
  },
  {
   "property": "C15",
   "status": "proved",
   "theorems": [
    "Oranssi.C15_constructor",
    "Oranssi.C15_monomial_mul",
    "Oranssi.C15_monomial_mul_assoc",
    "Oranssi.C15_order_independent"
   ],
   "note": ""
  },
  {
   "property": "C16",
   "status": "proved",
   "theorems": [
    "Oranssi.C16_commutes_with"
   ],
   "note": ""
  },
  {
   "property": "C17",
   "status": "proved",
   "theorems": [
    "Oranssi.C17_commutator"
   ],
   "note": ""
  },
  {
   "property": "C18",
   "status": "partial",
   "theorems": [
    "Oranssi.C18_nested_is_plain_product",
    "Oranssi.C18_nested_commutator_wrong"
   ],
   "note": "False as stated: the product of a commutator with a monomial is the plain product (the factor 2 and the vanishing are stored in coeff only, which multiplication ignores); concrete wrong nested commutator proved."
  },
  {
   "property": "C19",
   "status": "partial",
   "theorems": [
    "Oranssi.C19_monomial_eq_hash_partial",
    "Oranssi.C19_pauli_hash_inconsistent"
   ],
   "note": "Holds for PauliMonomial; false for Pauli (equal Paulis with different coefficients hash differently), proved with a witness."
  },
  {
   "property": "C20",
   "status": "partial",
   "theorems": [
    "Oranssi.C20_real_strict_order_partial",
    "Oranssi.C20_lt_not_asymmetric",
    "Oranssi.C20_lt_ignores_sites"
   ],
   "note": "False in general: with a complex coefficient __lt__ is not asymmetric, and sites are ignored. Strict order on the real-coefficient monomials proved."
  },
  {
   "property": "C21",
   "status": "partial",
   "theorems": [
    "Oranssi.C21_add_value_partial",
    "Oranssi.C21_add_no_duplicates",
    "Oranssi.C21_add_mutates_operand"
   ],
   "note": "The value part holds for all sums; \"leaves a and b unchanged\" is false when words repeat (witness) and true when they do not."
  },
  {
   "property": "C22",
   "status": "partial",
   "theorems": [
    "Oranssi.C22_sub_value_partial",
    "Oranssi.C22_sub_negates_operand",
    "Oranssi.C22_sub_self"
   ],
   "note": "The value is right for operands sharing no object; the right operand is always negated in place, and a - a denotes -2a."
  },
  {
   "property": "C23",
   "status": "partial",
   "theorems": [
    "Oranssi.C23_mul_value_partial",
    "Oranssi.C23_mul_ops",
    "Oranssi.C23_mul_ignores_scalar",
    "Oranssi.C23_mul_rejects"
   ],
   "note": "True for freshly built monomials whose products have one length; false after scalar_mul and rejected for differing lengths (both proved in general)."
  },
  {
   "property": "C24",
   "status": "partial",
   "theorems": [
    "Oranssi.C24_simplify_value",
    "Oranssi.C24_simplify_unique_words_partial",
    "Oranssi.C24_complex_leaves_duplicates"
   ],
   "note": "Value part proved for all inputs; at most one term per word proved for all-real sums, false when real and complex coefficients are mixed (witness)."
  },
  {
   "property": "C25",
   "status": "partial",
   "theorems": [
    "Oranssi.C25_conj_partial",
    "Oranssi.C25_conj_stale_coeff"
   ],
   "note": "The Paulis of the monomial are conjugated, the attribute coeff is not; exact condition and witness proved."
  },
  {
   "property": "C26",
   "status": "proved",
   "theorems": [
    "Oranssi.C26_key_round_trip",
    "Oranssi.C26_to_oranssi"
   ],
   "note": ""
  },
  {
   "property": "C57",
   "status": "proved",
   "theorems": [
    "Oranssi.C57_terminates"
   ],
   "note": "For every graph, stream of random choices and limits there is an iteration budget beyond which no loop runs out."
  },
  {
   "property": "C58",
   "status": "proved",
   "theorems": [
    "Oranssi.C58_verdict"
   ],
   "note": "For every graph without self-loops."
  },
  {
   "property": "C59",
   "status": "proved",
   "theorems": [
    "Oranssi.C59_no_crash"
   ],
   "note": ""
  },
  {
   "property": "C60",
   "status": "partial",
   "theorems": [
    "Oranssi.C60_disjoint_partial",
    "Oranssi.C60_disjoint_when_coloured_partial",
    "Oranssi.C60_odd_ring_overlaps"
   ],
   "note": "True for bonds without odd cycle and at most two neighbours per qubit, and whenever the colouring succeeds; false for odd rings (witness)."
  },
  {
   "property": "C61",
   "status": "proved",
   "theorems": [
    "Oranssi.C61_subset"
   ],
   "note": "Up to the orientation of a bond, which get_commuting_set may swap."
  },
  {
   "property": "C62",
   "status": "partial",
   "theorems": [
    "Oranssi.C62_returns_partial",
    "Oranssi.C62_degree_four_fails",
    "Oranssi.C62_degree_three_fails"
   ],
   "note": "True with at most two neighbours per qubit. False beyond: four neighbours always raise KeyError; three with none of exactly two always raise KeyError or IndexError."
  },
  {
   "property": "C27",
   "status": "proved",
   "theorems": [
    "Oranssi.C27_su2",
    "Oranssi.C27_su4",
    "Oranssi.C27_su8"
   ],
   "note": ""
  },
  {
   "property": "C28",
   "status": "proved",
   "theorems": [
    "Oranssi.C28_local",
    "Oranssi.C28_custom"
   ],
   "note": "For every eta (also one set with set_eta). The call itself raises ValueError only when there is no direction to sum and trotterize is off."
  },
  {
   "property": "C29",
   "status": "proved",
   "theorems": [
    "Oranssi.C29_local",
    "Oranssi.C29_custom"
   ],
   "note": ""
  },
  {
   "property": "C30",
   "status": "partial",
   "theorems": [
    "Oranssi.C30_unitary_kept_partial",
    "Oranssi.C30_nonunitary_kept",
    "Oranssi.C30_projection_would_help",
    "Oranssi.C30_layer_returns_nonunitary"
   ],
   "note": "The condition of the check is inverted: unitary updates are projected (a no-op), non-unitary ones are never projected. Refuted for the check and for a whole layer."
  },
  {
   "property": "C31",
   "status": "proved",
   "theorems": [
    "Oranssi.C31_directions"
   ],
   "note": ""
  },
  {
   "property": "C32",
   "status": "partial",
   "theorems": [
    "Oranssi.C32_stride_checked_partial",
    "Oranssi.C32_stride_ignored"
   ],
   "note": "False: stride is validated but never used."
  },
  {
   "property": "C33",
   "status": "partial",
   "theorems": [
    "Oranssi.C33_explicit_partial",
    "Oranssi.C33_none_raises",
    "Oranssi.C33_none_constructs"
   ],
   "note": "False: with directions=None every call raises TypeError. Listing all directions explicitly works."
  },
  {
   "property": "C34",
   "status": "partial",
   "theorems": [
    "Oranssi.C34_always_raises",
    "Oranssi.C34_constructs",
    "Oranssi.C34_empty_table",
    "Oranssi.C34_step"
   ],
   "note": "False: get_random_direction_and_qubits raises NotImplementedError, so every call fails. The constructor also leaves the table of operators empty, so the loop would raise a KeyError for any drawn direction; with the table filled the loop would return and go downhill (C34_step)."
  },
  {
   "property": "C56",
   "status": "proved",
   "theorems": [
    "Oranssi.C56_local",
    "Oranssi.C56_custom",
    "Oranssi.C56_single"
   ],
   "note": ""
  },
  {
   "property": "C35",
   "status": "proved",
   "theorems": [
    "Oranssi.C35_squared"
   ],
   "note": "Over every history of successful calls. IsRotoStep says what the returned circuit is."
  },
  {
   "property": "C36",
   "status": "proved",
   "theorems": [
    "Oranssi.C36_su8",
    "Oranssi.C36_small"
   ],
   "note": ""
  },
  {
   "property": "C37",
   "status": "proved",
   "theorems": [
    "Oranssi.C37_rotosolve_optimal"
   ],
   "note": ""
  },
  {
   "property": "C38",
   "status": "partial",
   "theorems": [
    "Oranssi.C38_not_increasing_partial",
    "Oranssi.C38_increases",
    "Oranssi.C38_squared_raises_cost"
   ],
   "note": "False: for a direction on k >= 2 qubits the cost is sampled at angles scaled by 1/2^k, so the angle formula is not the minimiser and the cost can grow. The case k = 1 is C37; for k >= 2 the partial theorem gives the cases in which the cost does not grow."
  },
  {
   "property": "C39",
   "status": "proved",
   "theorems": [
    "Oranssi.C39_adapt",
    "Oranssi.C39_one_qubit"
   ],
   "note": "For n >= 2; on one qubit every call raises KeyError."
  },
  {
   "property": "C40",
   "status": "partial",
   "theorems": [
    "Oranssi.C40_circuit_partial",
    "Oranssi.C40_extends_partial",
    "Oranssi.C40_ignores_circuit"
   ],
   "note": "False: the returned circuit is rebuilt from Hadamards and the layer's own rotations; the circuit passed in only enters the choice of the new layer."
  },
  {
   "property": "C41",
   "status": "proved",
   "theorems": [
    "Oranssi.C41_schedule",
    "Oranssi.C41_reported"
   ],
   "note": "C41_reported ties the values reported by approximate_lie_optimizer to the calls actually executed."
  },
  {
   "property": "C42",
   "status": "proved",
   "theorems": [
    "Oranssi.C42_pairs",
    "Oranssi.C42_su8_call"
   ],
   "note": "For the default add_su2 = False (the SU(4) dictionary then holds pairs only)."
  },
  {
   "property": "C43",
   "status": "partial",
   "theorems": [
    "Oranssi.C43_fails_at_eigenstates",
    "Oranssi.C43_refuted",
    "Oranssi.C43_succeeds_iff_partial",
    "Oranssi.C43_su4_partial"
   ],
   "note": "False: without a candidate k_max is never assigned and the call raises UnboundLocalError; this happens at every eigenstate of the observable. The partial theorem says exactly when a call succeeds."
  },
  {
   "property": "C44",
   "status": "proved",
   "theorems": [
    "Oranssi.C44_trace",
    "Oranssi.C44_succeeds_iff"
   ],
   "note": "Observables and circuit gates on distinct in-range wires."
  },
  {
   "property": "C45",
   "status": "proved",
   "theorems": [
    "Oranssi.C45_first_flat_step"
   ],
   "note": ""
  },
  {
   "property": "C46",
   "status": "partial",
   "theorems": [
    "Oranssi.C46_refuted",
    "Oranssi.C46_exact_bound_partial",
    "Oranssi.C46_parameter_shift_bound_partial",
    "Oranssi.C46_approx_bound_partial"
   ],
   "note": "False: numpy.isclose adds 1e-5 times the last cost to tol, so a run can stop early with a change above tol (even with tol = 0). The true bound is tol + 1e-5*|previous cost|."
  },
  {
   "property": "C47",
   "status": "proved",
   "theorems": [
    "Oranssi.C47_riemannian_step",
    "Oranssi.C47_unitary",
    "Oranssi.C47_derivative"
   ],
   "note": ""
  },
  {
   "property": "C48",
   "status": "partial",
   "theorems": [
    "Oranssi.C48_refuted",
    "Oranssi.C48_without_perturbation_partial",
    "Oranssi.C48_last_step_not_flat_partial"
   ],
   "note": "False: a perturbation at the last step changes the unitary after the cost is stored. True without perturbation, and when the last step is not flat."
  },
  {
   "property": "C49",
   "status": "proved",
   "theorems": [
    "Oranssi.C49_exact",
    "Oranssi.C49_exact_needs_perturbation",
    "Oranssi.C49_perturbation_unitary",
    "Oranssi.C49_approx",
    "Oranssi.C49_approx_without",
    "Oranssi.C51_no_tolerance"
   ],
   "note": "With tol=None the approximate optimizer never calls a step flat (C51_no_tolerance)."
  },
  {
   "property": "C52",
   "status": "proved",
   "theorems": [
    "Oranssi.C52_exact",
    "Oranssi.C52_parameter_shift",
    "Oranssi.C52_approx"
   ],
   "note": "For the parameter-shift optimizer return_params must be a bool or a non-negative integer (see C69)."
  },
  {
   "property": "C55",
   "status": "proved",
   "theorems": [
    "Oranssi.C55_trace",
    "Oranssi.C55_succeeds_iff"
   ],
   "note": ""
  },
  {
   "property": "C68",
   "status": "proved",
   "theorems": [
    "Oranssi.C68_one_qubit_run",
    "Oranssi.C68_one_qubit_descends"
   ],
   "note": ""
  },
  {
   "property": "C69",
   "status": "partial",
   "theorems": [
    "Oranssi.C69_return_params_not_checked",
    "Oranssi.C69_negative_flag"
   ],
   "note": "False: return_params is never checked. A value that is not a number runs to the end and then raises TypeError, and return_params = -1 drops the requested states."
  },
  {
   "property": "C50",
   "status": "proved",
   "theorems": [
    "Oranssi.C50_trace",
    "Oranssi.C50_empty_layers",
    "Oranssi.C50_succeeds_iff",
    "Oranssi.C50_total_layers"
   ],
   "note": ""
  },
  {
   "property": "C51",
   "status": "proved",
   "theorems": [
    "Oranssi.C51_first_flat_step",
    "Oranssi.C51_no_tolerance"
   ],
   "note": ""
  },
  {
   "property": "C53",
   "status": "partial",
   "theorems": [
    "Oranssi.C53_refuted"
   ],
   "note": "False: the list is never appended to, it is empty for every run. Nothing of the property remains."
  },
  {
   "property": "C54",
   "status": "partial",
   "theorems": [
    "Oranssi.C54_refuted",
    "Oranssi.C54_no_directions",
    "Oranssi.C54_greedy_layers_partial"
   ],
   "note": "False for the local, custom and stochastic layers, which replace their observables by matrices: AttributeError. True for the squared, Adapt, SU(8) and Zassenhaus layers."
  },
  {
   "property": "C63",
   "status": "proved",
   "theorems": [
    "Oranssi.C63_pure_state"
   ],
   "note": ""
  },
  {
   "property": "C64",
   "status": "partial",
   "theorems": [
    "Oranssi.C64_refuted",
    "Oranssi.C64_poles",
    "Oranssi.C64_round_trip_partial"
   ],
   "note": "False as stated: an angle phi within 1e-3 + 2e-5*pi below 2*pi is returned as 0 (C64_refuted). The partial theorem proves the round trip for all other angles; C64_poles says what happens at theta = 0 and theta = pi."
  },
  {
   "property": "C65",
   "status": "proved",
   "theorems": [
    "Oranssi.C65_locality_curves",
    "Oranssi.C65_other_calls"
   ],
   "note": ""
  },
  {
   "property": "C66",
   "status": "partial",
   "theorems": [
    "Oranssi.C66_joined",
    "Oranssi.C66_refuted_file",
    "Oranssi.C66_refuted_concurrent",
    "Oranssi.C66_sequential_partial",
    "Oranssi.C66_concurrent_partial",
    "Oranssi.C66_one_succeeds_partial"
   ],
   "note": "False as stated in two ways: a file with the name of the directory makes the function return without a directory, and two concurrent callers can interleave so that one gets FileExistsError. The partial theorems prove the claim for one caller when no file is in the way (and NotADirectoryError otherwise), and for any number of callers and every interleaving that the directory exists when a caller has finished, that FileExistsError is the only exception and only occurs with overlapping paths, and that one caller of each path succeeds."
  },
  {
   "property": "C67",
   "status": "partial",
   "theorems": [
    "Oranssi.C67_constructors",
    "Oranssi.C67_exact",
    "Oranssi.C67_parameter_shift",
    "Oranssi.C67_approx_rejects",
    "Oranssi.C67_approx",
    "Oranssi.C67_set_eta_unchecked"
   ],
   "note": "True for all constructors and optimizers; false for the methods set_eta of the layers, which check nothing (C67_set_eta_unchecked)."
  },
  {
   "property": "C70",
   "status": "partial",
   "theorems": [
    "Oranssi.C70_refuted",
    "Oranssi.C70_pure_states_partial"
   ],
   "note": "False for states with phi just below 2*pi, which are reported with phi = 0. The partial theorem proves it for all other pure states."
  },
  {
   "property": "C71",
   "status": "partial",
   "theorems": [
    "Oranssi.C71_refuted",
    "Oranssi.C71_two_qubits_partial"
   ],
   "note": "False: the function looks up the word XX, which is a key only for two qubits. The partial theorem proves the curves for two qubits."
  },
  {
   "property": "C72",
   "status": "proved",
   "theorems": [
    "Oranssi.C72_approx",
    "Oranssi.C72_exact"
   ],
   "note": ""
  },
  {
   "property": "C73",
   "status": "proved",
   "theorems": [
    "Oranssi.C73_approx",
    "Oranssi.C73_exact",
    "Oranssi.C73_parameter_shift"
   ],
   "note": ""
  },
  {
   "property": "C74",
   "status": "partial",
   "theorems": [
    "Oranssi.C74_result_partial",
    "Oranssi.C74_order_partial",
    "Oranssi.C74_disjoint_partial",
    "Oranssi.C74_succeeds_partial",
    "Oranssi.C74_two_qubits",
    "Oranssi.C74_needs_optimizer",
    "Oranssi.C74_reversed_bond_raises"
   ],
   "note": "False as stated: C74_reversed_bond_raises exhibits a layer on three qubits whose second call, with commute=True, raises KeyError for some random choices, because networkx reports a bond in descending order and the Pauli dictionary only has ascending ones. Proved: the full description of every successful call (terms, near-maximality, angles, circuit, unitarity); independence of the order when the qubits are disjoint; disjointness when the near-maximal bonds form no odd cycle and have degree at most 2; success when the near-maximal bonds do not overlap (always on one or two qubits); an exception without optimizer."
  },
  {
   "property": "C75",
   "status": "proved",
   "theorems": [
    "Oranssi.C75_custom",
    "Oranssi.C75_custom_trotter",
    "Oranssi.C75_local",
    "Oranssi.C75_all_directions",
    "Oranssi.C75_agrees",
    "Oranssi.C75_runs"
   ],
   "note": "Exact arithmetic. For the local layer with trotterization see C28/C29 for the factors. Costs of the two runs are compared at every step both reach, since their stopping rules differ."
  },
  {
   "property": "C76",
   "status": "proved",
   "theorems": [
    "Oranssi.C76_costs",
    "Oranssi.C76_first",
    "Oranssi.C76_descends",
    "Oranssi.C76_limit",
    "Oranssi.C76_stationary"
   ],
   "note": "The closed form of one step is proved from the matrix exponential of the commutator (cost_involution_step). The number of steps in C76_limit does not depend on the number of qubits, the circuit or the observable. A run may of course stop before, by nsteps or by the tolerance."
  },
  {
   "property": "C77",
   "status": "proved",
   "theorems": [
    "Oranssi.C77_nearest",
    "Oranssi.C77_unique",
    "Oranssi.C77_svd_irrelevant",
    "Oranssi.C77_singular"
   ],
   "note": "numpy.linalg.svd is a parameter with its contract (ValidSvd). That the layers only call the projection on matrices that are unitary already is C30."
  },
  {
   "property": "C78",
   "status": "proved",
   "theorems": [
    "Oranssi.C78_adapt_step"
   ],
   "note": "Gradient descent is a parameter (any function); C79 adds its contract. The number of steps, 40, is the default of parameter_shift_optimizer, which the layer does not override."
  },
  {
   "property": "C79",
   "status": "proved",
   "theorems": [
    "Oranssi.C79_parameter_shift",
    "Oranssi.C79_training",
    "Oranssi.C79_foreign_rows",
    "Oranssi.C79_runs_succeed"
   ],
   "note": "PennyLane's GradientDescentOptimizer is a parameter with its contract (ValidGd; exists_validGd shows that it can be met). C79_foreign_rows: with two AdaptVQELayer objects in one pattern, the row an object appends for its new layer is not the one that layer uses, and stays at 0.1."
  },
  {
   "property": "C80",
   "status": "proved",
   "theorems": [
    "Oranssi.C80_constructor",
    "Oranssi.C80_terms",
    "Oranssi.C80_third_order",
    "Oranssi.C80_call",
    "Oranssi.C80_one_qubit"
   ],
   "note": "scipy's Nelder-Mead minimiser is a parameter (any function). sympy expressions are modelled as complex multiples of products of the three symbols, which are all that occur. The gates use half the fitted angles, in reverse order, after Hadamard gates."
  },
  {
   "property": "C81",
   "status": "partial",
   "theorems": [
    "Oranssi.C81_partial",
    "Oranssi.C81_discards_circuit",
    "Oranssi.C81_refuted",
    "Oranssi.C81_uphill"
   ],
   "note": "False. C81_discards_circuit: all circuits preparing eigenstates of the observable are mapped to the same circuit (the layer starts again from the identity). C81_refuted: for all Hermitian observables, all minimisers and all unitaries G(x) determined by the fitted parameters x, some circuit U is not mapped to G(x) U, not even as a state and up to a factor. C81_uphill: with an exact fit the cost increases along the fitted vector, at the rate eta times the sum of the squared gradients (the sign of the fitted vector is wrong). C81_partial: the returned circuit is unitary and depends on the given one only through its five gradients."
  },
  {
   "property": "C82",
   "status": "proved",
   "theorems": [
    "Oranssi.C82_exact",
    "Oranssi.C82_approx",
    "Oranssi.C82_call"
   ],
   "note": "Nothing is assumed about the gates, observables, arguments or external functions."
  },
  {
   "property": "C83",
   "status": "proved",
   "theorems": [
    "Oranssi.C83_exact",
    "Oranssi.C83_approx",
    "Oranssi.C83_products"
   ],
   "note": "ValidEigh and ValidSvd are the contracts of numpy.linalg.eigh and numpy.linalg.svd; exists_choices shows that different functions meet them."
  },
  {
   "property": "C84",
   "status": "proved",
   "theorems": [
    "Oranssi.C84_exact",
    "Oranssi.C84_approx",
    "Oranssi.C84_eta",
    "Oranssi.C84_parameter_shift"
   ],
   "note": "return_omegas can raise (C54), so it is not newly set. C84_eta shows that eta of approximate_lie_optimizer is only used by the perturbation: the step sizes are those of the layers. For parameter_shift_optimizer the flag return_params is a bool (0 or 1), see C69 for other values."
  },
  {
   "property": "C85",
   "status": "proved",
   "theorems": [
    "Oranssi.C85_constructors",
    "Oranssi.C85_approx",
    "Oranssi.C85_approx_order",
    "Oranssi.C85_parameter_shift",
    "Oranssi.C85_exact_order_matters"
   ],
   "note": "C85_exact_order_matters is the negative half of the claim: one step for Z, X and for X, Z on one qubit gives different costs."
  },
  {
   "property": "C86",
   "status": "proved",
   "theorems": [
    "Oranssi.C86_exact",
    "Oranssi.C86_approx"
   ],
   "note": "Greedy layers are not covered: their rotosolve step may leave an eigenstate that is not a minimum. The step alone for the local and custom layers is C29."
  },
  {
   "property": "C87",
   "status": "proved",
   "theorems": [
    "Oranssi.C87_digraph",
    "Oranssi.C87_digraph_empty",
    "Oranssi.C87_two_generators"
   ],
   "note": "The generated Lie algebra is that of the words themselves (with real or imaginary coefficient), not of i times the words; see C89 for the difference."
  },
  {
   "property": "C88",
   "status": "proved",
   "theorems": [
    "Oranssi.C88_generators",
    "Oranssi.C88_main"
   ],
   "note": ""
  },
  {
   "property": "C89",
   "status": "partial",
   "theorems": [
    "Oranssi.C89_refuted",
    "Oranssi.C89_two_generators_partial"
   ],
   "note": "The claim as stated is false of the code (C89_refuted: six nodes, dimension three). It holds for two generators."
  },
  {
   "property": "C90",
   "status": "proved",
   "theorems": [
    "Oranssi.C90_graph",
    "Oranssi.C90_graph_empty",
    "Oranssi.C90_graph_other_length"
   ],
   "note": ""
  },
  {
   "property": "C91",
   "status": "proved",
   "theorems": [
    "Oranssi.C91_parameters",
    "Oranssi.C91_costs",
    "Oranssi.C91_plot_equal"
   ],
   "note": ""
  },
  {
   "property": "C92",
   "status": "proved",
   "theorems": [
    "Oranssi.C92_distance",
    "Oranssi.C92_steepest"
   ],
   "note": ""
  },
  {
   "property": "C93",
   "status": "proved",
   "theorems": [
    "Oranssi.C93_costs",
    "Oranssi.C93_dominates",
    "Oranssi.C93_strict"
   ],
   "note": ""
  },
  {
   "property": "C94",
   "status": "proved",
   "theorems": [
    "Oranssi.C94_exact"
   ],
   "note": ""
  },
  {
   "property": "C95",
   "status": "proved",
   "theorems": [
    "Oranssi.C95_call",
    "Oranssi.C95_approx"
   ],
   "note": "For layers that have at least one operator or are trotterized; the others raise or do nothing (C28)."
  },
  {
   "property": "C96",
   "status": "proved",
   "theorems": [
    "Oranssi.C96_hamiltonian",
    "Oranssi.C96_minimum",
    "Oranssi.C96_stuck",
    "Oranssi.C96_script"
   ],
   "note": ""
  },
  {
   "property": "C97",
   "status": "proved",
   "theorems": [
    "Oranssi.C97_unitary"
   ],
   "note": "Exact arithmetic; np.allclose with its default tolerances is modelled."
  },
  {
   "property": "C98",
   "status": "proved",
   "theorems": [
    "Oranssi.C98_gradients",
    "Oranssi.C98_outside"
   ],
   "note": "C98_outside: outside the ball the script stores zeros."
  },
  {
   "property": "C99",
   "status": "partial",
   "theorems": [
    "Oranssi.C99_refuted",
    "Oranssi.C99_entry_partial"
   ],
   "note": "False: the script sets rho_0[1, 0] instead of rho_0[0, 0]. Proved instead, for all points: the entry is the derivative of the cost along a Y rotation of the initial state, and entry^2 + cost^2 <= 2, so that the minimum -sqrt(2) of the entries is at circuits of cost 0."
  },
  {
   "property": "C100",
   "status": "partial",
   "theorems": [
    "Oranssi.C100_level_partial",
    "Oranssi.C100_line_partial",
    "Oranssi.C100_refuted"
   ],
   "note": "False on the line r3 = -r4, where the division by r3 + r4 lost the sphere equation: the grid of the script meets it, with heights up to 49/4. Proved: the claim off the line, and the exact value and criterion on the line and at the origin."
  },
  {
   "property": "C101",
   "status": "proved",
   "theorems": [
    "Oranssi.C101_local",
    "Oranssi.C101_custom",
    "Oranssi.C101_single"
   ],
   "note": "||H|| is the l2 operator norm of Mathlib (largest absolute eigenvalue for a Hermitian matrix).  Floating point is replaced by exact arithmetic."
  },
  {
   "property": "C102",
   "status": "proved",
   "theorems": [
    "Oranssi.C102_steps",
    "Oranssi.C102_run"
   ],
   "note": "Single observable, because with several observables the update is a product of non-commuting factors and the remainder of C101 is not bounded by the gradients of the sum."
  },
  {
   "property": "C103",
   "status": "partial",
   "theorems": [
    "Oranssi.C103_costs",
    "Oranssi.C103_smallest",
    "Oranssi.C103_refuted_ground",
    "Oranssi.C103_refuted_limit",
    "Oranssi.C103_bias_partial"
   ],
   "note": "False as stated. The loop over the observables updates the unitary after each of them, with the state the update before has left. C103_costs gives every run with two anticommuting involutory observables in closed form. C103_refuted_ground: a run that starts at the smallest cost, -sqrt 2, leaves it in the first step for every step size. C103_refuted_limit: every run whose first state is inside the disc a^2 + b^2 < 1 converges to a value above -sqrt 2. What holds instead is C103_bias_partial: the limit lies between -sqrt 2 cos(sqrt 2 eta / 4) and -sqrt 2 cos(eta / 2), so the excess is of second order in eta. First states on the rim a^2 + b^2 = 1 other than the ground state are covered by C103_costs only."
  },
  {
   "property": "C104",
   "status": "partial",
   "theorems": [
    "Oranssi.C104_one_angle",
    "Oranssi.C104_minimum",
    "Oranssi.C104_refuted_reach",
    "Oranssi.C104_partial"
   ],
   "note": "False as stated. The Hadamard gates prepare a state on which the two X rotations only act as a phase, so of the three fitted angles only the third one matters (C104_one_angle, for every list of observables). For the script's observables the cost is 2 cos of that angle, at least -2 (C104_refuted_reach), while the line the script draws, -1 - sqrt 2, is the smallest cost of all circuits and is attained by one (C104_minimum). What holds: the layer's circuits do reach -2 (C104_partial)."
  },
  {
   "property": "C105",
   "status": "partial",
   "theorems": [
    "Oranssi.C105_sums",
    "Oranssi.C105_refuted",
    "Oranssi.C105_terms_partial"
   ],
   "note": "False as stated. For all Pauli monomials and any number of calls the terms of order 2 sum to [X,Y], twice what the series has, and those of every higher order sum to 0 (C105_sums); for monomials that do not commute the order 3 of the series is not 0 (C105_refuted). The list of order 2 holds both [X,Y]/2 and [Y,X]/(-2), and a nested commutator starts from the plain product of its predecessor (C18), so the two families cancel from order 3 on. What holds: each single term of order 2 is right, and each term of order 3 is right up to its sign (C105_terms_partial)."
  },
  {
   "property": "C106",
   "status": "proved",
   "theorems": [
    "Oranssi.C106_custom",
    "Oranssi.C106_local",
    "Oranssi.C106_sum_only",
    "Oranssi.C106_one_letter"
   ],
   "note": "The coefficients are read off the state of the circuit with which the call starts, for all observables and directions, so they add up; commuting exponents then join to one exponential. C106_one_letter gives a condition on the strings that works for every number of qubits; C107 has one that is special to two qubits."
  },
  {
   "property": "C107",
   "status": "proved",
   "theorems": [
    "Oranssi.C107_call",
    "Oranssi.C107_call_one",
    "Oranssi.C107_costs",
    "Oranssi.C107_one_direction",
    "Oranssi.C107_descends",
    "Oranssi.C107_limit",
    "Oranssi.C107_smallest"
   ],
   "note": "Stated for every first state exp(-i theta/2 ZZ)|++> up to a phase, theta = pi/4 - x; the script is x = pi/4, eta = 0.1 (the layer's default; the eta passed to the optimizer only matters for perturbations). Descent and limit need 0 < x < pi."
  },
  {
   "property": "C108",
   "status": "proved",
   "theorems": [
    "Oranssi.C108_costs",
    "Oranssi.C108_params",
    "Oranssi.C108_descends",
    "Oranssi.C108_stops",
    "Oranssi.C108_stationary",
    "Oranssi.C108_limit",
    "Oranssi.C108_stuck"
   ],
   "note": "ValidGdList is the trusted statement about pennylane's gradient descent step (C55). C108_stuck shows that the hypothesis of C108_limit is needed."
  },
  {
   "property": "C109",
   "status": "partial",
   "theorems": [
    "Oranssi.C109_points_partial",
    "Oranssi.C109_refuted"
   ],
   "note": "False as stated: in the run of the script (eta 0.05, 100 steps, tolerance 1e-3, start pi/3, pi/5) there is a step at which the first parameter moves by less than 0.08 and the drawn point moves from below 0.08 to above 6.2 (C109_refuted). What holds: every drawn point lies in the plotted square and the landscape has there the height of the cost (C109_points_partial)."
  },
  {
   "property": "C110",
   "status": "partial",
   "theorems": [
    "Oranssi.C110_cost",
    "Oranssi.C110_partial",
    "Oranssi.C110_refuted"
   ],
   "note": "False as stated: whatever gradient, start and arguments, no cost of the parameter-shift run is below -2.28, and the drawn minimum is below -2.4 (C110_refuted). What holds: the cost formula (C110_cost) and that -sqrt 5 is reached (C110_partial)."
  },
  {
   "property": "C111",
   "status": "proved",
   "theorems": [
    "Oranssi.C111_squared",
    "Oranssi.C111_su8",
    "Oranssi.C111_run",
    "Oranssi.C111_leaves"
   ],
   "note": "C111_leaves shows that the condition on the gradients is needed. In C111_run the condition is that two directions have a gradient, since the squared layer leaves out the direction taken before."
  },
  {
   "property": "C112",
   "status": "proved",
   "theorems": [
    "Oranssi.C112_run"
   ],
   "note": "In the later steps the condition on the gradients stays a hypothesis here; C117 removes it."
  },
  {
   "property": "C113",
   "status": "proved",
   "theorems": [
    "Oranssi.C113_eigenvalue",
    "Oranssi.C113_drawn",
    "Oranssi.C113_run"
   ],
   "note": "The products of integer matrices in the proof are checked by kernel reduction (decide +kernel); they are about one fixed matrix, the claim about all runs follows from C73."
  },
  {
   "property": "C114",
   "status": "proved",
   "theorems": [
    "Oranssi.C114_call",
    "Oranssi.C114_run"
   ],
   "note": "The condition that two layers (about different words) have a gradient is needed since the layer leaves out the word taken before and takes the first candidate where all gradients vanish."
  },
  {
   "property": "C115",
   "status": "proved",
   "theorems": [
    "Oranssi.C115_first",
    "Oranssi.C115_run"
   ],
   "note": "In the later steps the condition on the gradients stays a hypothesis here; C117 removes it."
  },
  {
   "property": "C116",
   "status": "proved",
   "theorems": [
    "Oranssi.C116_first",
    "Oranssi.C116_untrained",
    "Oranssi.C116_run"
   ],
   "note": ""
  },
  {
   "property": "C117",
   "status": "proved",
   "theorems": [
    "Oranssi.C117_call",
    "Oranssi.C117_su8",
    "Oranssi.C117_run",
    "Oranssi.C117_tfim"
   ],
   "note": "Removes the condition on the gradients from C111 and C112 for symmetries with letters I and X on the first three qubits. Adaptive layers are not covered, there the condition is needed for the second candidate."
  },
  {
   "property": "C118",
   "status": "proved",
   "theorems": [
    "Oranssi.C118_step",
    "Oranssi.C118_uphill"
   ],
   "note": "The example does not depend on which of the two admissible directions is met first."
  },
  {
   "property": "C119",
   "status": "proved",
   "theorems": [
    "Oranssi.C119_anti",
    "Oranssi.C119_commute",
    "Oranssi.C119_sign",
    "Oranssi.C119_x1",
    "Oranssi.C119_x0",
    "Oranssi.C119_closeness2"
   ],
   "note": "The three-angle comparison of closeness_1 is treated on the two slices x0 = 0 and x1 = 0, where the exponent squares to a multiple of the identity."
  },
  {
   "property": "C120",
   "status": "partial",
   "theorems": [
    "Oranssi.C120_swapped_partial",
    "Oranssi.C120_refuted"
   ],
   "note": "Refuted for the grid of the script. True part, for every size: the printed list is the point of the first smallest entry with its first two coordinates exchanged."
  },
  {
   "property": "C121",
   "status": "proved",
   "theorems": [
    "Oranssi.C121_run",
    "Oranssi.C121_state",
    "Oranssi.C121_first"
   ],
   "note": ""
  },
  {
   "property": "C122",
   "status": "proved",
   "theorems": [
    "Oranssi.C122_ansatz",
    "Oranssi.C122_index",
    "Oranssi.C122_period",
    "Oranssi.C122_even",
    "Oranssi.C122_cost"
   ],
   "note": ""
  },
  {
   "property": "C123",
   "status": "proved",
   "theorems": [
    "Oranssi.C123_critical",
    "Oranssi.C123_succeeds",
    "Oranssi.C123_stuck",
    "Oranssi.C123_zero"
   ],
   "note": "the gradient step of PennyLane is a contract (ValidGdList)."
  },
  {
   "property": "C124",
   "status": "proved",
   "theorems": [
    "Oranssi.C124_grad",
    "Oranssi.C124_exact",
    "Oranssi.C124_call",
    "Oranssi.C124_approx",
    "Oranssi.C124_run"
   ],
   "note": "Stated for the antiunitary symmetry \"conjugate, then apply the Pauli word w\"; the empty word gives reality. Example with a symmetry that is not just conjugation."
  },
  {
   "property": "C125",
   "status": "proved",
   "theorems": [
    "Oranssi.C125_odd",
    "Oranssi.C125_run",
    "Oranssi.C125_bond",
    "Oranssi.C125_figure",
    "Oranssi.C125_script"
   ],
   "note": "The condition of two directions with a gradient is the one of C111 and C112; it holds for the initial circuit, so the claims always hold for the second one."
  },
  {
   "property": "C126",
   "status": "proved",
   "theorems": [
    "Oranssi.C126_su8",
    "Oranssi.C126_adapt",
    "Oranssi.C126_su4",
    "Oranssi.C126_zass"
   ],
   "note": "tfim_zassenhaus is described for runs that raise and for runs that do not; which of the two happens depends on the gradients met (C43)."
  },
  {
   "property": "C127",
   "status": "proved",
   "theorems": [
    "Oranssi.C127_bond",
    "Oranssi.C127_word",
    "Oranssi.C127_curve",
    "Oranssi.C127_total",
    "Oranssi.C127_figure"
   ],
   "note": ""
  },
  {
   "property": "C128",
   "status": "proved",
   "theorems": [
    "Oranssi.C128_call",
    "Oranssi.C128_run"
   ],
   "note": ""
  },
  {
   "property": "C129",
   "status": "proved",
   "theorems": [
    "Oranssi.C129_exact",
    "Oranssi.C129_threshold"
   ],
   "note": "Together with C38_not_increasing_partial this settles for which sampled costs C38 holds."
  },
  {
   "property": "C130",
   "status": "proved",
   "theorems": [
    "Oranssi.C130_causal",
    "Oranssi.C130_script"
   ],
   "note": "Finding: `perturbations` holds the index of the loop, not the index of the cost measured last."
  },
  {
   "property": "C131",
   "status": "proved",
   "theorems": [
    "Oranssi.C131_run",
    "Oranssi.C131_picture",
    "Oranssi.C131_cost"
   ],
   "note": "Finding: the title of the picture promises a diagonalization that has not taken place."
  },
  {
   "property": "C132",
   "status": "proved",
   "theorems": [
    "Oranssi.C132_script"
   ],
   "note": "The script model contains the two runs, the points on the sphere, the landscapes on the 25 x 25 grids, the dots and the labels. Exact real arithmetic."
  },
  {
   "property": "C133",
   "status": "proved",
   "theorems": [
    "Oranssi.C133_jump"
   ],
   "note": "The pair of expectations follows the closed form of C103; the run is followed until the second expectation becomes negative. Exact real arithmetic."
  },
  {
   "property": "C134",
   "status": "proved",
   "theorems": [
    "Oranssi.C134_individually",
    "Oranssi.C134_other_calls",
    "Oranssi.C134_script"
   ],
   "note": "approximate_example.py to its last statement. The script theorem gives both drawn curves and the inset as functions of the step."
  },
  {
   "property": "C135",
   "status": "proved",
   "theorems": [
    "Oranssi.C135_gap",
    "Oranssi.C135_sharp",
    "Oranssi.C135_criterion",
    "Oranssi.C135_common",
    "Oranssi.C135_trio"
   ],
   "note": "The distance comes from compactness of the unitary group and is not computed. Exact real arithmetic."
  },
  {
   "property": "C136",
   "status": "proved",
   "theorems": [
    "Oranssi.C136_never",
    "Oranssi.C136_script"
   ],
   "note": "Finding: the curve of the Riemannian method cannot converge to the dashed minimum. toy_example.py to its last statement; left out are axes, colours, printing."
  },
  {
   "property": "C137",
   "status": "proved",
   "theorems": [
    "Oranssi.C137_script",
    "Oranssi.C137_markers",
    "Oranssi.C137_second",
    "Oranssi.C137_tfim"
   ],
   "note": "C137_script settles both outcomes of the run; that the run of these 40 steps succeeds is not claimed (C43: a Zassenhaus call may raise)."
  },
  {
   "property": "C138",
   "status": "proved",
   "theorems": [
    "Oranssi.C138_pair",
    "Oranssi.C138_call",
    "Oranssi.C138_run"
   ],
   "note": "C138_run is about every run that succeeds (C43: a Zassenhaus call may raise); the first call always succeeds (C138_call), and an example gives a run of one step."
  },
  {
   "property": "C139",
   "status": "proved",
   "theorems": [
    "Oranssi.C139_succeeds",
    "Oranssi.C139_run",
    "Oranssi.C139_fit",
    "Oranssi.C139_positive",
    "Oranssi.C139_exact",
    "Oranssi.C139_script"
   ],
   "note": "The minimiser is an arbitrary function; NeverWorse and ExactMin are hypotheses about it, used where named. Nelder-Mead only approximates ExactMin."
  },
  {
   "property": "C140",
   "status": "proved",
   "theorems": [
    "Oranssi.C140_step",
    "Oranssi.C140_run",
    "Oranssi.C140_stop"
   ],
   "note": "Norms are operator norms. The estimate does not say which eigenvalue is approached (C135, C136: the smallest one may be out of reach)."
  },
  {
   "property": "C141",
   "status": "proved",
   "theorems": [
    "Oranssi.C141_step",
    "Oranssi.C141_run",
    "Oranssi.C141_stop",
    "Oranssi.C141_tfim"
   ],
   "note": "The gradient step is the contract ValidGdList of pennylane's GradientDescentOptimizer. Norms are operator norms. Step sizes above the bound, such as the 0.01 of tfim_su4_linesearch.py on 4 qubits, are not covered by the runs, but by C141_step."
  },
  {
   "property": "C142",
   "status": "proved",
   "theorems": [
    "Oranssi.C142_training",
    "Oranssi.C142_small"
   ],
   "note": "The gradient step is the contract ValidGd of pennylane's GradientDescentOptimizer. Norms are operator norms. Nothing is said about the cost before the call: the new row of angles 0.1 may raise it."
  },
  {
   "property": "C143",
   "status": "proved",
   "theorems": [
    "Oranssi.C143_call"
   ],
   "note": "The gradient step is the contract ValidGd of pennylane's GradientDescentOptimizer. Norms are operator norms."
  },
  {
   "property": "C144",
   "status": "proved",
   "theorems": [
    "Oranssi.C144_raises",
    "Oranssi.C144_run"
   ],
   "note": "A finding about the program: a call need not lower the cost. The gradient step is the contract ValidGd."
  },
  {
   "property": "C145",
   "status": "proved",
   "theorems": [
    "Oranssi.C145_table",
    "Oranssi.C145_reads",
    "Oranssi.C145_faithful",
    "Oranssi.C145_stride",
    "Oranssi.C145_same",
    "Oranssi.C145_shifted",
    "Oranssi.C145_fits",
    "Oranssi.C145_flags",
    "Oranssi.C145_operators",
    "Oranssi.C145_choices"
   ],
   "note": "The centring of a format field and the printing of a bool as a number are Python's rules, stated in Model/Printing.lean."
  },
  {
   "property": "C146",
   "status": "proved",
   "theorems": [
    "Oranssi.C146_reach",
    "Oranssi.C146_positive",
    "Oranssi.C146_distance"
   ],
   "note": "The gradient step is the contract ValidGd of pennylane's GradientDescentOptimizer. Norms are operator norms. The hypotheses of C146_distance are those of C142_training, with the example given there."
  },
  {
   "property": "C147",
   "status": "proved",
   "theorems": [
    "Oranssi.C147_label",
    "Oranssi.C147_pauli",
    "Oranssi.C147_identity"
   ],
   "note": "Python's formatting of coefficients is a parameter: a function that is injective and free of spaces on the set of coefficients that occur. Coefficients that are sympy expressions may contain spaces and are not covered."
  },
  {
   "property": "C148",
   "status": "proved",
   "theorems": [
    "Oranssi.C148_costs",
    "Oranssi.C148_descends",
    "Oranssi.C148_stuck",
    "Oranssi.C148_limit",
    "Oranssi.C148_agree",
    "Oranssi.C148_below"
   ],
   "note": ""
  }
 ]
}

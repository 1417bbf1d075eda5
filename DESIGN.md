# Design of the formal model of therooler/oranssi

Lean 4.33.0 + Mathlib (single modules only).  Everything lives under `lean/Verif/`.

* `Verif/Spec/*`  – small specifications, written without looking at the code: what "operator on wires", "Pauli word
  operator", "matching", "proper edge colouring", "run with early stopping", "part of an operator along some Pauli words" mean.
* `Verif/Model/*` – the code, function by function; every definition cites file and lines in `/repo`.
* `Verif/Lemmas/*` – helper lemmas.
* `Verif/Props/*` – the property theorems (`Cnn_...`), with examples showing that their hypotheses are met by concrete,
  non-trivial cases.
* `properties.jsonl` – the properties in English; `MANIFEST.json` – which theorems settle which property (generated from
  `tools/claims.txt` by `tools/manifest.py`, which also writes `lean/Verif.lean`).
* `seeded/LOG.jsonl` – the wrong programs the theorems were tested against (see below), `tools/mutate.py` runs them.

## Modelling conventions

* Exceptions are values: `Except PyErr α`, with one constructor per Python exception class that occurs.
* Numbers: `complex`/`float` are modelled by exact `ℂ`/`ℝ`.  Rounding is not modelled; every property is stated in exact
  arithmetic.  `np.isclose(a,b,atol)` is `|a-b| ≤ atol + 1e-5*|b|` (numpy's default `rtol`); `inf` is a possible tolerance.
* Matrices of shape `2^n × 2^n` are Mathlib matrices indexed by `Fin (2^n)`; `reshape([2]*m)` is the C-order (big-endian)
  bit decomposition of the index, so wire 0 is the most significant bit; `np.einsum` with explicit label lists is modelled
  literally (sum over all 0/1 assignments of the labels).  Matrices of other shapes occur where the code can receive them
  (`NpMat`).
* Python's negative indices, dictionaries (insertion-ordered lists of pairs), `max(d, key=d.get)` (the first maximum),
  `itertools.product/combinations`, `zip` truncation, `Counter`-like bookkeeping are modelled literally.
* External calls are parameters with a stated contract, and theorems quantify over everything that meets it:
  PennyLane's state/expval QNodes return `U|0..0>` and `Re <0|U†OU|0>`; `scipy.linalg.expm` is the matrix exponential;
  `np.linalg.eigh`/`svd` return *some* valid decomposition (`ValidEigh`, `ValidSvd`; existence is proved for every n);
  PennyLane's `GradientDescentOptimizer` steps along the derivative (`ValidGd`, `ValidGdList`; only for C79, C91 and C93, elsewhere it is any function);
  `random.choice`/`randint` are an arbitrary stream; Python set iteration order is an arbitrary permutation; the
  gradient-descent step, the inner optimizer handed to a layer and Nelder–Mead are arbitrary functions; `networkx` edge
  orientation after colouring is computed from insertion order as networkx does.
* Objects that the code mutates and aliases (PauliMonomial inside PauliSum, layer objects inside an optimizer run) live in an
  explicit heap or state; a layer object listed twice is one object.
* Loops bounded only by a random process (edge colouring) take fuel; running out is the distinct outcome `diverge`, and C57
  proves that enough fuel always exists.
* Python values that reach validation code (`PyVal`, `NArg`, `BoolArg`) form a small universe: floats, ints, bools, strings,
  `None`, and "something else"; `nonFinite` covers `inf`/`nan` floats where they matter.
* `print` is omitted; formatting of strings is a parameter where it matters (hash of a `Pauli`).

### What is simplified where

* `Model/BchCompare` (BCH.py `closeness_1`, `closeness_2`): `expm` is the exact exponential; the symbolic part of `closeness_1`, whose results are only printed, is left out.
* `Model/BchScript` (BCH.py): the sympy coefficients are complex numbers, the values of the expressions at some values of the symbols.
* `Model/Pauli`: coefficients are complex numbers; sympy coefficients are modelled in `Model/ZassenhausV2` only, as multiples
  of products of the symbols.  A `Pauli` inside a monomial is a value.
* `Model/Greedy` (squared, Adapt, SU(8) layers): histories are sequences of successful calls.  `commute=True` of the squared
  layer is modelled with an arbitrary inner optimizer that is handed the parametrised circuit (C74); `AnyLayer.call`, used by
  the optimizer, never passes `commute`, as the code does not either.
* `Model/Zassenhaus`: `ratio` is a pair of integers; the candidate loop keeps the code's uninitialised variable as an explicit
  "not assigned yet".
* `Model/Optimizers`: the circuit is given by the list of its gates and wires (what `get_ops_from_qnode` returns) and by
  whether it returns a state (`CircuitRet`); the random perturbation matrices are an arbitrary stream.
* `Model/Printing` (optimizers.py:323-328 and the `__repr__` of the layers): the lines printed, as lists of characters; the two lines above the table (optimizers.py:320-322) are left out.
* `Model/Tex` (pauli.py `__tex__`, algebra_graphs.py:105): texts as lists of characters; the formatting of coefficients is a parameter.
* `Model/AlgebraGraphs` (experiments_paper/algebra_graphs.py): networkx graphs are lists of nodes and edges; nodes are found by `__eq__`,
  with which `__hash__` agrees for monomials of equal length; the `while` loops have an iteration budget, which C87 shows to suffice.
* `Model/EigenstatePerturbation` (experiments_paper/eigenstate_perturbation.py): the circuit, the observables, the matrix `H` and the calls of the optimizer; drawing left out.
* `Model/SingleQubit` (experiments/single_qubit_ps_comparison.py): the circuits of `plot_equal` and `plot_difference` as lists of gates; `pennylane.GradientDescentOptimizer`
  on a list of numbers is any function with the contract `ValidGdList` (subtract `eta` times the partial derivatives).
* `Model/RedBlue` (experiments_paper/red_blue_comparison.py): the columns of the parameters modulo 2 pi that the red figure draws; the circuit is `plotDifferenceCircuit`.  Not modelled: matplotlib.
* `Model/ToyExample` (experiments_paper/toy_example.py): the circuit as a list of gates.
* `Model/Tfim` (tfim_su4_linesearch.py, tfim_su8_linesearch.py, tfim_su4_adapt_vqe.py, zassenhaus.py): the Hadamard circuit and the observables, for any number of
  qubits; the optimizer calls are stated in `Props/Tfim`.
* `Model/Scripts` (the same four scripts, from the first to the last statement): a script is a sequence of calls that write files and may raise; printing, the drawing into the
  figures and the directories are left out, and writing a file is assumed to succeed.
* `Model/PerturbationScript` (eigenstate_perturbation.py, first to last statement): the two matrices and the markers that are drawn and the files; left out are printing, axes and labels.
* `Model/RedBlueScript` (red_blue_comparison.py, first to last statement): the curves, the landscapes on their grids, the dots, the labels and the files; left out are axes, colours and the unused list `costs_converted`.
* `Model/ToyScript` (toy_example.py, first to last statement): the two curves, the line and the file; left out are printing, axes and colours.
* `Model/ZassenhausScript` (zassenhaus.py:12-117 and the markers of lines 148-208): the curves, the line, the markers with their labels, the file; left out are printing, axes and fonts.
* `Model/ApproxExampleScript` (approximate_example.py, first to last statement, and the drawing of `plot_su8_directions_individually`): the curves with their labels, the inset and the file; left out are axes and colours.
* `Model/FixedPoints` (experiments_paper/fixed_points.py, 3_sphere_level_curves.py): `unitary`, one row of the loop, `level_surface`; `nan` is `none`; the grids and the
  drawing are left out.
* `Model/FixedPointsGrid` (fixed_points.py:18-52): the grid in the axis order of `np.meshgrid`, the arrays row by row and the printed minimum; histogram and quiver plots are left out.
* `Model/Plot`: only the data that is plotted, not the drawing.
* `Model/FileSystem`: an abstract file system (set of directories and files) with any number of interleaved callers, each
  performing one check or one `mkdir` at a time.

Not modelled: matplotlib drawing, printing, the experiment scripts other than those named above, sympy beyond that, PennyLane internals, floating-point rounding, numpy's
32-dimension/52-label limits, what `plot_su16_directions_separate` would draw (it passes one argument too many to `get_all_su_n_directions` and always raises
`TypeError`, or `IndexError` for no unitaries), the commented-out second half of `optimizers.py`.

## Trusted base

1. Lean's kernel.
2. The axioms `propext`, `Classical.choice`, `Quot.sound`, nothing else, for every theorem listed in `MANIFEST.json` (checked
   by `vcheck`, which replays every theorem and prints its axioms; no `sorry`, no `native_decide`, no own axioms).
3. The reading of the Python source documented in the comments of `Verif/Model`.
4. The contracts of the external functions listed above.
5. The specifications in `Verif/Spec` (and the few definitions marked `Spec.` in `Verif/Props`) say what the English
   properties mean.

## Findings: properties the unchanged code violates

Each is refuted by a theorem with a concrete witness (or for all inputs), next to a `_partial` theorem for what does hold.

| id | finding |
|---|---|
| C05 | `get_full_operator` accepts repeated and negative wires |
| C18 | products and nested commutators ignore the coefficient a commutator carries |
| C19 | equal `Pauli` objects with different coefficients have different hashes |
| C20 | `PauliMonomial.__lt__` is not asymmetric for complex coefficients |
| C21–C24 | `PauliSum` operations change their operands; `a - a` denotes `-2a`; multiplication after `scalar_mul` is wrong; like terms survive when real and complex coefficients mix |
| C25 | `conj` leaves `coeff` alone |
| C30 | the condition of `unitary_error_check` is inverted |
| C32 | `stride` is checked but never used |
| C33 | the custom layer with `directions=None` raises on every call |
| C34 | the stochastic layer raises on every call; its table of operators is empty, so the loop would fail even with a drawn direction |
| C38 | `rotosolve` on directions of two or more qubits can increase the cost (angles scaled by `1/2^k`) |
| C40 | the Adapt layer discards the circuit it is given |
| C43 | the Zassenhaus layer raises `UnboundLocalError` when no candidate exists |
| C46 | early stopping can have a last change above `tol` (the relative part of `np.isclose`) |
| C48 | the returned unitary may be a perturbation of the last reported one |
| C53 | `return_gates` always returns an empty list |
| C54 | `return_omegas` raises for local, custom and stochastic layers |
| C60, C62 | `get_commuting_set` returns overlapping bonds for odd rings and raises for vertices of degree 4 |
| C64, C70 | an angle just below 2π is reported as 0 |
| C66 | `save_path_creator` races, and trusts a file of the same name |
| C67 | `set_eta` checks nothing |
| C69 | `return_params` is not checked |
| C71 | `plot_su8_directions` looks up `XX` and works for two qubits only |
| C81 | `ZassenhausLayerV2` discards the circuit it is given, and fits its vector uphill |
| C74 | `commute=True` raises `KeyError` when networkx reports a bond in descending order |
| C89 | the algebra graph counts `A` and `iA` as two nodes, so it overcounts the dynamical Lie algebra |
| C99 | fixed_points.py sets `rho_0[1, 0]`, so its `costs` are not costs |
| C100 | `level_surface` is finite, with values up to 49/4, at points with `r3 = -r4` that are not on the sphere |
| C103 | with the observables X and Y of red_blue_comparison.py the exact optimizer leaves the ground state of X + Y in the first step and converges to a cost above the ground energy, by an amount of the order of eta squared, because it updates after every single observable |
| C104 | the circuits of ZassenhausLayerV2 begin with Hadamard gates followed by X rotations, which only change the phase, so two of its three fitted angles have no effect; with the observables of its script the cost is at least -2 whatever the third angle is, above the minimum -1 - sqrt 2 that the script draws |
| C105 | the terms that `bch_recusion` collects sum to the whole commutator at order 2, twice the term of the series, and to 0 at every higher order, because both orders of the first commutator are collected and nested commutators forget the coefficients of the inner one |
| C109 | red_blue_comparison.py draws the parameters modulo 2 pi. In the script's own run the first parameter crosses 0, so the line jumps once from the left border of the figure to the right border. |
| C110 | The parameter-shift run of toy_example.py can never reach the dashed line of its figure: its circuit has no cost below -2.28, the line is at -1-sqrt 2 |
| C118 | the SU(8) step of ZassenhausLayer can raise the cost for every step size |
| C119 | `polynomial_unitary` in closeness_1 of BCH.py has the wrong signs (x1 and the YZ term), so the printed difference is not small of third order; the last comparison of closeness_2 cannot hold |
| C120 | fixed_points.py prints the first two coordinates of the minimum exchanged (np.meshgrid has indexing='xy'); on its grid of 20 points per axis the printed point never has the smallest entry |
| C121 | `ZassenhausLayerV2` adds the fitted angles to `self.params` (starting from (0.1, 1.2, 0.6)) and prints the sum, but builds its circuit from the last fit alone; after the first step the printed angles never describe the state of the circuit. |
| C123 | gradient descent from multiples of π/2 (0 among them) never moves |
| C126 | tfim_su8_linesearch.py always ends with a `KeyError` (its 6 qubits do not fit the word `XXXX` of `plot_su16_directions`), tfim_su4_adapt_vqe.py always with a `TypeError` (`plot_su16_directions_separate`); their figures of directions are never written |
| C128 | the first line search of the Ising scripts (direction YZ on qubits 0 and 1) lowers the cost by about 1.946; the best angle of the same direction would lower it by 2 + sqrt 5 = 4.236.  `rotosolve` divides the angle by 2^k, but the formula is that for k = 1 |
| C130 | the markers of the perturbed steps stand one step too early |
| C131 | the picture is diagonal for every run because only the real part is drawn; the matrix is not, and two of the drawn numbers are no eigenvalues |
| C132 | the labels `k = …` at the ends of the curves of red_blue_comparison.py are one larger than the number of steps |
| C133 | The solid curve of the first figure of red_blue_comparison.py jumps from the left to the right side of the figure when the azimuth passes 0; the states before and after are close together. |
| C135 | `exact_lie_optimizer` applies the observables one after the other; when no ground state survives such a sweep, no number of steps brings the costs to the minimum |
| C136 | neither curve of toy_example.py can converge to the line `Minimum`; of two neighbouring points of the Lie curve one is at a fixed distance above it |
| C137 | the dashed line `Minimum` of zassenhaus.py is at a negative value on a logarithmic axis and cannot be seen; the second figure of `tfim_zassenhaus` has no labels because the flags are not set again |
| C138 | The first step of zassenhaus.py goes up: the shifts of rotosolve are wrong for two qubits (C38), and at (0.2, 1.4) the step along ZX takes the cost from 0.340 to more than 0.75 although less than -0.84 is possible along it |
| C139 | With an exact fit ZassenhausLayerV2 climbs: in its own script every step multiplies the third angle by about -0.4, the costs rise to the largest value 2 of the ansatz, and the run stops at the first test; the figure draws absolute values of positive costs over a line at -1 - sqrt 2 |
| C144 | A call of an AdaptVQELayer raises the cost of a circuit that is already optimal: it adds a layer with angles 0.1 even if all gradients vanish, and the 40 steps of training do not bring the angles back to zero. |
| C145 | The printed table gives the SquaredLieAlgebraLayer the name of the StochasticLieAlgebraLayer, shows the Trotter flag as 1 or 0, and its bars do not stand below those of the header for the local, stochastic and squared layers. |
| C146 | With a small observable (norm below 1/4) a call of an AdaptVQELayer cannot bring the new angles, which begin at 0.1, to zero or below: the 40 steps of 0.01 are too short. |
| C147 | The TeX text of a single identity operator (Pauli.tex) leaves out its site; the one without the coefficient shows it. |

## Properties and proofs
(status in MANIFEST.json)

| id | what is modelled | proof |
|---|---|---|
| C01–C05 | `get_full_operator` with its asserts, Python negative indexing and einsum labels | einsum sum collapses to one term; algebra from the entry formula |
| C06 | compile loop of the optimizers | induction on the gate list |
| C07 | `param_shift_comm` | exponential of an involution in closed form |
| C08 | `get_hamiltonian_matrix` | induction on the list |
| C09–C10 | `get_su_2/4/n_operators` incl. `it.product`, `np.kron` | induction on N, tensor-product calculus |
| C11 | `operator_2_norm` | trace identity, Frobenius norm |
| C12–C13 | `get_all_su_n_directions` | Pauli completeness (C10) |
| C14–C20, C25, C26 | `Pauli`, `PauliMonomial` | denotation into tensor-product matrices |
| C21–C24 | `PauliSum` on a heap | invariants of `simplify` for every set order |
| C27 | `AlgebraSU2/4/8` | key-set characterisation for all n |
| C28–C36, C39–C43 | the layers | exp of anti-Hermitian is unitary; argmax lemmas; history invariants; counter automaton |
| C37–C38 | `rotosolve` | sinusoid lemma and `arctan2`; explicit counterexample for two-qubit directions |
| C44–C55 | the three optimizers' loops | one generic lemma about runs (`Spec.Rules.Run`), induction over steps |
| C56 | layer step | derivative of the matrix exponential |
| C57–C62 | `edge_coloring.py`, `get_commuting_set` over an arbitrary random stream | lexicographic measure for termination, invariants; total correctness for bipartite graphs of degree ≤ 2 |
| C63–C64, C70 | Bloch-sphere helpers | trigonometry |
| C65, C71 | plot bucketing | counting |
| C66 | `save_path_creator` on an abstract file system with any number of interleaved callers | invariant over all interleavings |
| C67, C69 | validation expressions on a small universe of Python values | case analysis |
| C68 | one-qubit run of `exact_lie_optimizer` | closed form of the step, monotonicity of x + eta sin x |
| C72–C73 | all reported circuits of all optimizers with all layers | unitarity invariant; spectral theorem |
| C74 | squared layer with `commute=True` | selection, colouring and inner optimizer put together |
| C75 | local and custom layers against the exact step | Pauli expansion of the commutator |
| C76 | `exact_lie_optimizer` with one involutory observable, any register | closed form of the step; convergence of `x + eta sin x` |
| C77 | `_project_onto_unitary` | trace inequality for singular values |
| C78–C79 | the training of an AdaptVQE layer, runs with such layers | trace of the inner run; every angle enters one rotation only |
| C80–C81 | `ZassenhausLayerV2`: the collection of terms in sets, the fit, the circuit | set order as a permutation; second-order jets of exponentials; `CNOT RZ CNOT` as a `ZZ` rotation |
| C82 | both Lie optimizers and all layers, for two circuits that prepare the same ray | relational induction over the runs (`Spec.SameBehaviour`) |
| C83 | both Lie optimizers, for two eigensolvers, singular value decompositions and set orders | closed forms that do not mention the choice; sorting undoes the order |
| C84 | the three optimizers, for two choices of the flags | relational induction over the runs (`Spec.Refines`) |
| C85 | runs with greedy layers for two lists of observables with equal sums; one exact step on one qubit | relational induction over the runs; explicit rotation angles for the exact optimizer |
| C86 | whole runs from a common eigenstate | the density matrix commutes with the observables, so every generator vanishes; the stopping rule of `Spec.Rules.Run` |
| C87 | `generate_product_algebra_digraph`: termination, basis, depth | invariants of one round of the double loop (`RoundInv`) and of the `while` loop (`DepthInv`); at most 128 words with real or imaginary coefficient; linear independence by trace pairing |
| C88 | `SU4_to_SU8_algebra`, `main` of algebra_graphs.py | evaluation of the key table, then C87 |
| C89 | nodes against `Spec.dynamicalAlgebra` | C87 for `i` times the generators; explicit closures for `X`, `Y`, `Z` |
| C90 | `generate_product_algebra_graph`: termination, nodes, edges | invariant of one round (`RoundU`): pairs done so far, soundness of the edges; a closed graph is a fixed point of the round |
| C91 | `plot_equal`: the two optimizers report the same costs (and states) | closed form of both runs (C76 and the gradient step), comparison of the stopping rules |
| C92 | The exact step is the steepest one (one involutory observable) | projections on the two eigenspaces and Cauchy's inequality bound the overlap by `cos ((x-y)/2)` |
| C93 | `plot_difference`: exact cost ≤ parameter-shift cost at every step | the gradient step stays within the distance of the exact step (`cos √(p²+d²) ≤ cos p cos d`), C92, monotonicity of the flow |
| C94 | symmetries of the observables are conserved by the exact optimizer | `Q G = c G` for the generator `G` of the step, hence `(Q - c) exp(zG) = Q - c` |
| C95 | Pauli symmetries are conserved by local and custom layers | coefficients along anticommuting words vanish, the remaining factors commute with the word |
| C96 | eigenstate_perturbation.py: unperturbed costs stay ≥ 1-√2 | C94 with X on the second qubit; `(X+Y)/√2` is an involution |
| C97 | `unitary(r)` parametrises SU(2) up to sign | rows of SU(2) matrices; `r3` is the root of the rest |
| C98 | gradients vanish exactly at the extrema | `Σ g² = 2 - cost²` on the 3-sphere; C12 |
| C99 | (false) entries of `costs` | value at a grid point; derivative of the cost along a right Y rotation |
| C100 | (false on a line) `level_surface` | quadratic equation for `r2` from the sphere and the level equation |
| C101 | change of the cost by one step, with explicit error | `‖e^X - 1 - X‖ ≤ ‖X‖²/2` for skew-Hermitian `X`; product of exponentials; operator norm |
| C102 | costs never increase if `4 η K ‖H‖ ≤ 2^n`; small gradient after `j` steps | C101 along the run; telescoping sum |
| C103 | (false) runs with two anticommuting observables reach the ground state of the sum | closed form by half steps on the Bloch disc; central projection for the height, limsup argument on the rim |
| C104 | (false) ZassenhausLayerV2 can reach the minimum drawn by its script | state after a call as one ZZ rotation of the plus state, up to a phase; cost 2 cos |
| C105 | (false) the terms of `bch_recusion` sum to the Baker-Campbell-Hausdorff series | sums of the operators carried by the Paulis satisfy a linear recursion with the initial value X + Y |
| C106 | local and custom layers with commuting directions make one step along the sum of the observables | exponentials of commuting matrices multiply to the exponential of the sum; the coefficients are linear in the observable because the state is read once per call |
| C108 | The parameter-shift run of red_blue_comparison.py as two independent one-angle flows; descent, stopping, limit | sum and difference of the two parameters; cos (x + h) <= cos x - h sin x + h^2/2 |
| C109 | What the red figure of red_blue_comparison.py draws | refuted for the script's arguments by following the two angles of C108 until they cross |
| C110 | The parameter-shift curve of toy_example.py can reach the dashed minimum | closed form of the cost, bound on it (refuted); the value -sqrt 5 is reached |
| C111 | symmetries and greedy layers | a direction with a gradient commutes with the symmetry, since the gradient along an anticommuting word vanishes in the sector; a counterexample with vanishing gradients (`C111_leaves`) |
| C112 | Ising scripts | gradients of the bonds in the plus state computed with Pauli words for every n; specialises C111 |
| C113 | ground state energy drawn by the Ising script | the Hamiltonian is a matrix of integers; a polynomial in its square vanishes (products of tables of integers, checked by the kernel), so every eigenvalue is among the roots; an eigenvector is written down |
| C114 | AdaptVQE layers keep the flip of all qubits as a symmetry | Props/AdaptSymmetry: a layer with a gradient in a symmetric state commutes with the flip at every bond |
| C115 | first layer and symmetry of tfim_su4_adapt_vqe.py | Props/AdaptSymmetry: all gradients of the initial state, first maximum |
| C116 | first step of tfim_su4_adapt_vqe.py, exact angles after 40 iterations | Props/AdaptTfim: cost as a sum over bonds, recursion of the angle, bounds on the decrease per iteration |
| C117 | Greedy and Zassenhaus layers keep symmetries made of X letters without conditions on the gradients; all circuits of the Ising scripts are symmetric under the flip | a direction with a gradient commutes with the symmetry, and without any gradient the first entry of the dictionary, made of X letters, is taken; induction over the run |
| C118 | Exact cost after an SU(8) step of ZassenhausLayer; an example where every step size goes uphill | closed form of the cost along a rotation; in the example both admissible directions are identified from their gradients and give the same angle |
| C119 | when the Baker-Campbell-Hausdorff formula cut off after the commutator is exact; what closeness_1 and closeness_2 compare | exponential of a combination of two anticommuting words and their product in closed form (`sinc`), independence of `1, P, Q, PQ`, `a cos a ≠ sin a` on `(-π, π)` |
| C120 | the point printed by fixed_points.py | flat index of meshgrid and unravel_index, first minimum of the list; on the script's grid a point with equal squares of the first two coordinates is never minimal (bounds in units of 1/361, exact case analysis for the last coordinate) |
| C121 | params of ZassenhausLayerV2 | a call does not read params; induction over the steps; the state of the ansatz depends on the third angle alone, and X0 and Y0Z1 read off its cosine and sine |
| C122 | tfim_su4_linesearch.py:17-33, the variational circuit | Model/TfimVqe lists its gates; the compiled circuit is alternating evolution under the couplings of the ring and the field (Spec/Qaoa); period π in every angle, even in all of them together |
| C123 | parameter_shift_optimizer on this circuit | evenness and the period give a reflection about every such point, so the derivatives vanish there; runs by C55_trace |
| C124 | symmetries with a complex conjugation are kept | words are even or odd under the symmetry; the coefficient of an odd word is odd as well, so the generators of the layers are even; gradients along even words vanish |
| C125 | Ising scripts: real circuits, words with an odd number of Y and of Z | C124 with the empty word and C111 with the flip of all qubits; signs counted with products over the letters |
| C126 | the four Ising scripts, from the first to the last statement | Model/Scripts: calls that may raise, with the list of files written so far; the runs succeed by C50, C79 and C123, the plots by C65 |
| C128 | the first step of the Ising scripts: which direction the three greedy layers select and what cost they reach | the cost along an involution in terms of the costs before and after it and of the gradient; signs of the words give n - 4 after YZ; at most one bond has a gradient along a word; numerical bounds for the half angle |
| C129 | the exact criterion for a line search that raises the cost (completes C38) | the cost is a sinusoid; in the second quadrant the polar angle is pi - arctan x, and a sine grows by the angle u iff 2 beta + u < pi; the criterion is strictly monotone in x, so it is a threshold |
| C130 | eigenstate_perturbation.py: files and markers | two runs with the same random matrices before step p agree up to the result of step p (induction over the rules of the run); the script model writes both figures |
| C131 | eigenstate_perturbation.py: the picture of the unperturbed diagonalization | the run stays in the family exp(-i theta (ZI + ZX)/2) (H x H); the 16 entries of U^dagger H U in closed form; (H^2 - 3)^2 = 8 |
| C132 | red_blue_comparison.py: files, curves, landscapes, labels | the states are unitary images of the first basis state, so the three expectations have norm one and state_to_spherical inverts the parametrisation; the script model writes both figures |
| C133 | jump of the solid curve in the first figure of red_blue_comparison.py | `C133_jump`: the pair of expectations is followed step by step (`Quarter.step`) until the second becomes negative, which happens before the run can stop |
| C134 | approximate_example.py to the last statement: the drawing function `plot_su8_directions_individually` for all inputs, the two curves and the inset of the script | the derivative of a word is minus the imaginary part of its component in the Riemannian generator (`wordGradient_eq`), which C107 has for the states of the run; `minEigenvalue_eq` (a value attained and never undercut is the smallest eigenvalue) |
| C135 | the costs come and stay near E iff a unitary of cost E is sent to cost E by one sweep | `C135_criterion` (compactness), `C135_common`, `C135_trio` |
| C136 | toy_example.py to the last statement | `C136_script`, `C136_never` |
| C137 | What the figure of zassenhaus.py shows | `Props/ZassenhausScript`; product states in `Props/ProductState` |
| C138 | In zassenhaus.py the second cost exceeds the first by more than 0.4; general criterion for a rotosolve step along a pair to raise the cost | gradients of all 27 pairs in a product state with bounds for sin and cos at 0.2 and 1.4; cost along the direction as a sinusoid |
| C139 | Runs with ZassenhausLayerV2; the fit, the costs and the figure of zassenhaus.py:77-117 | the five gradients in the state of the ansatz in closed form; trace of the run with the circuits of C121; cosine bounds; success through an invariant that only fixes the layer up to its params |
| C140 | A step of exact_lie_optimizer lowers the cost by eta times the variance, up to a quadratic error; rates for runs and for early stopping | product of unitary exponentials to second order, with the generators of the sweep compared with the commutator of the first state; commutator with a state bounded by a reflection; telescoping; eigenvalue within the standard deviation |
| C141 | Gradient steps of parameter_shift_optimizer lower the cost for small enough step sizes, with rates for runs and for early stopping; instance for the circuit of tfim_su4_linesearch.py | a change of the parameters multiplies the circuit by exponentials of conjugated generators; product of unitary exponentials to second order; the linear term is the gradient by comparison with the quadratic error; Cauchy-Schwarz; telescoping |
| C142 | The at most 40 gradient steps of an AdaptVQELayer call descend while ‖H‖ times the number of rotations is at most 100 | the circuit is an ansatz in the sense of C141 whose parameters, read row by row, turn at most one rotation each; the derivative is the parameter-shift rule of C79 |
| C143 | A call of an AdaptVQELayer on its own circuit raises the cost by no more than -0.05 G + 0.005 ‖H‖ p² | second order estimate of the layer at 0.1, then C142 |
| C144 | For -X on every qubit the second call returns a circuit with cost -n cos x, 0.06 ≤ x ≤ 0.1 | exact cost and parameter-shift derivative of the two layers; recursion x - 0.01 sin x |
| C145 | The table of layers: one row per layer; rows of local layers determine the layer; equal rows of different classes; alignment | splitting the row at the bars and commas; lengths of decimal numbers |
| C146 | No angle moves by more than 0.4 ‖H‖ in a call; squared distance at most 0.8 times the descent | the parameter-shift derivative is at most ‖H‖; Cauchy–Schwarz over the steps of C142 |
| C147 | TeX labels determine coefficient and word | splitting at spaces and closing braces |
| C148 | plot_difference: parameter shift in closed form; equal to the exact run iff cos a sin b = 0 | gradient descent splits into two flows; a shorter exact step moves the state as far as the gradient step, C92 |
| C127 | the data drawn by `plot_su16_directions` at the first step of the Ising scripts | factors I and X of a word leave |+...+> alone and can be removed; a factor Y or Z off the bond anticommutes with the flip of its qubit; words are counted by the set of their letters I |
| C107 | the run of approximate_example.py: full Riemannian steps, closed form of the costs, limit | the commutator at exp(-i theta/2 ZZ)|++> is computed entry by entry and lies along ZZ - YY; then the angle recursion of C76 |

## Testing the theorems against wrong programs

`tools/mutate.py` takes a list of edits of `Verif/Model` (a wrong boundary, a swapped argument, a dropped update, …), applies
one at a time in a scratch copy outside `/verif`, rebuilds everything and records which declarations fail.  An edit under which
everything still proves is a sign of a weak theorem; each such case was looked at and either the theorems were tightened or the
edit does not make any English claim false (the log says why).  `seeded/LOG.jsonl` has one line per edit.

A proof that stops compiling is not by itself a refutation: it shows that the theorem's proof depends on the edited detail.  In the log,
`failing_proofs` are the declarations that no longer compile, and `theorems_failed` the claimed theorems among or above them
(`tools/mutlog.py` computes them from the dependencies of every claimed theorem; a lemma proved by `rfl` may leave no trace in a
proof term, and where an entry was added by hand for this reason its note says so).

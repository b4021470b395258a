# Design

Formal model of parts of simpeg (source in /repo, pinned commit) in Lean 4 with theorems for the properties in properties.jsonl.

## Trusted base

* Lean 4.33.0 kernel and the Mathlib modules imported. Axioms used by the theorems: `propext`, `Classical.choice`, `Quot.sound` only (every theorem depends on a subset of these three). No `sorry`, no axioms, no `native_decide`.
* The transcription from Python to Lean: every definition cites the file and lines it models and says where it simplifies. Nothing is extracted or executed from /repo.
* Numbers are exact: integers and naturals for sizes, an ordered field, the reals or the complex numbers for floats. Rounding, overflow and NaN (except the placeholders in `dpred` and the NaN cases of the validators) are outside the model.
* Primitives of numpy, scipy and discretize (slicing, fancy indexing, sparse products, linear solvers, mesh operators and inner products) are modelled by their mathematical meaning. Contracts of discretize that a theorem needs are hypotheses of that theorem.
* Python object identity is modelled by numbers (ids) or by equality of values; garbage collection, threads (except the process model of `Verif/Meta`) and printing are not modelled.

## Plan and outcome per property

How each property is modelled and proved, and its status. Names in brackets are theorems. A violated property keeps its statement in properties.jsonl; the violation is a theorem with a concrete witness, and what remains true is proved beside it.

* **C01 Survey slices partition the data vector** - List model of source/receiver lists (identity = Nat ids), executable getSlice/getAllSlices; induction over the pair list: cumulative offsets, disjointness, coverage, KeyError iff absent. *Status: proved; slices are consecutive, disjoint, cover 0..nD, for every survey accepted by the constructors.*
* **C02 Per-receiver data access is isolated and round-trips** - Data state machine over a flat list with set/get by slice; refinement to a map pair -> block; induction on histories. *Status: proved; length-1 values broadcast, as numpy does; other wrong lengths raise.*
* **C03 Predicted data vector is completely and uniquely assembled** - dpred loop as a fold of slice writes into a vector of Option (NaN placeholders); proved equal to flatMap of receiver evaluations. *Status: proved.*
* **C04 Number of data always matches the source list** - Survey state with the vnD cache; negation by witness history (stale cache), partial theorem for histories which never reassign source_list after a read. *Status: partial; violated by the code: nD is cached at first read (C04_nD_is_stale). Holds when receivers are not changed after the first read (C04_nD_matches_partial).*
* **C05 Field storage: last write wins, writes are isolated** - Fields as a finite map name -> column matrix; refinement to (name, column) -> value over histories. *Status: proved.*
* **C06 Receiver projection caching is transparent** - Cache as association list with key; BaseRx transparent by invariant; BaseTimeRx negation by witness, partial for fixed grids. *Status: partial; violated by the code when locations are reassigned (C06_moved_receiver_is_stale) and for time projections (C06_time_receiver_ignores_grid); the cache is exact otherwise.*
* **C07 Uncertainty state machine** - Uncertainty state machine over reals; formula as invariant; the standard_deviation setter is not atomic on failure (negation by witness). *Status: partial; violated by the code for a rejected standard_deviation assignment (C07_rejected_std_erases_relative_error); everything else proved.*
* **C08 Objective-function algebra evaluates to the algebraic value** - Inductive expression type; elaboration to the Combo tree produced by __add__/__mul__; value by structural recursion; induction. *Status: proved; expressions over +, scalar *, scalar /.*
* **C09 Objective-function algebra differentiates correctly** - Same trees over EuclideanSpace-like real vector spaces; HasFDerivAt by induction. *Status: proved.*
* **C10 Combo objective well-formedness is an invariant** - State machine with constructor/setter validation; invariant by induction. *Status: proved; objects are values: later mutation of a member (for instance its mapping) is not modelled.*
* **C11 L2 objective: value, gradient and Hessian agree** - Matrix/dotProduct model, HasFDerivAt. *Status: proved.*
* **C12 Data misfit: value, gradient and Gauss-Newton product** - Matrix model of the misfit with residual, gradient by HasFDerivAt; deriv2 formula W(WJv) refuted for non-symmetric W, proved for symmetric W. *Status: partial; value and gradient proved for every W; the Gauss-Newton product is right for symmetric W only, and wrong otherwise (C12_deriv2_wrong_for_nonsymmetric_W).*
* **C13 Data misfit weights follow the data uncertainties** - State machine with cached W; negation by witness; partial for histories without updates after first use. *Status: partial; violated by the code: weights are cached at first evaluation (C13_weights_are_stale).*
* **C14 Inverse problem objective is the trade-off sum** - Decision logic of evalFunction flags plus HasFDerivAt of the sum. *Status: partial; proved when terms without simulation come last; otherwise evalFunction always raises IndexError (C14_misaligned_always_raises).*
* **C15 Map composition obeys the chain rule** - List of differentiable maps; fold; chain rule by induction. *Status: proved; differentiable components are a hypothesis on the leaf maps.*
* **C16 Elementary property maps have exact derivatives and inverses** - Real functions with HasDerivAt/left inverse on domain. *Status: partial; violated by the code: the derivative of LogMap is zero for positive values below 1e-16 (C16_violated_log_small); everything else proved.*
* **C17 is_linear is sound** - Map AST with is_linear flag; refuted by affine LinearMap; partial for ASTs without affine leaves. *Status: partial; violated by affine maps that report is_linear = True (C17_affine_maps_report_linear); compositions are sound relative to their members.*
* **C18 Accepted compositions are applicable** - Constructor check on list of shapes with Option Nat; refuted by '*' in between; partial for all-fixed shapes. *Status: partial; proved without free shapes inside the chain; a free-shape map hides a mismatch (C18_free_map_hides_mismatch); C18_applicable_iff is the exact criterion.*
* **C19 Wires partition the model vector** - List splitting; join of blocks is identity. *Status: proved.*
* **C20 Active-cell injection** - List-of-Bool mask model. *Status: proved; for a validated Boolean mask; changing active_cells after construction is not modelled.*
* **C21 A physical property has exactly one source of truth** - State machine with four slots; invariant by induction. *Status: proved; C21_deriv: both properties of a reciprocal pair have maps, or none, as in every class of the package.*
* **C22 Model-dependent caches are refreshed when the model changes** - State machine of model + cache with the allclose gate; refuted (arbitrarily large drift), partial: exact freshness up to allclose to the previous model. *Status: partial; violated by the code: a change within np.allclose, or in place, keeps caches of the old model (C22_unbounded_drift, C22_inplace_change_unnoticed).*
* **C23 Stopping decision** - Decision logic outright. *Status: proved.*
* **C24 Line search postcondition and termination** - Fuel-free recursion on remaining LS iterations; postcondition by induction. *Status: partial; proved without the binding-set stopper that ProjectedGradient adds; with it an increase can be accepted (C24_binding_accepts_increase).*
* **C25 Minimisation loop: bounded iterations and monotone objective** - Loop recursion on remaining iterations; invariants by induction. *Status: partial; violated by the code for ProjectedGradient, whose line search accepts points where all components are bound (C25_violated_binding), and without require_decrease; proved for all other optimisers. Direction, gradient, objective and callbacks are arbitrary functions of iteration and point; failing callbacks are not modelled.*
* **C26 Bound constraints hold at every iterate** - Componentwise projection; invariant across the run of the loop model. *Status: proved; lower <= upper is not checked by the code and is a hypothesis (C26_inconsistent_bounds_accepted).*
* **C27 BFGS directions are descent directions** - Matrix model of L-BFGS two-loop recursion; SPD by induction over stored pairs. *Status: proved; initial operator positive definite; nbfgs >= 1. C27_secant_full_memory and C27_secant_first_update give the pair for which the secant equation holds; C27_memory says which columns are written. C27_pairs_are_mismatched and C27_newest_update_ignored record that the stored pairs are not those of the BFGS formula.*
* **C28 Search-direction scaling limits the step** - Refuted for all-negative directions; partial for directions whose max has the largest absolute value. *Status: partial; violated for directions whose largest component by absolute value is negative (C28_negative_component_unlimited): the code takes abs(max(p)).*
* **C29 Meta-simulation data layout and adjointness** - Lists of vectors; adjoint identity by induction over simulations. *Status: partial; layout, adjointness and derivative proved; over histories only for model changes that np.allclose notices (C29_small_change_not_seen is the counterexample).*
* **C30 Sum and repeated meta-simulations** - As C29; RepeatedSimulation as a state machine over the shared simulation. *Status: partial; sum and repeated simulation proved; equality of repeated and independent copies over histories only for changes that np.allclose notices.*
* **C31 getJtJdiag is the diagonal of J^T W^T W J** - Matrix identity; cache ignores W (negation by witness), partial for first call. *Status: partial; violated by the code: cached across weights (C31_weights_are_stale) and wrong for mappings that mix cells (C31_wrong_for_mixing_map).*
* **C32 Distributing simulations over processes** - Arithmetic and list induction. *Status: proved.*
* **C33 Parallel meta-simulation equals the serial one** - Transition system with FIFO queues and arbitrary interleaving; invariant; worker exceptions break it (negation by witness). *Status: partial; proved for every schedule when no worker raises; after an exception in a worker replies are out of step (C33_desync_after_exception). Worker death, timeouts and join are not modelled.*
* **C34 Beta schedule has the documented closed form** - Induction over iterations. *Status: proved; other directives and the optimiser leave beta alone.*
* **C35 IRLS cooling adjustment moves misfit toward target** - Real inequality. *Status: partial; for a positive misfit; a misfit of exactly zero makes the directive raise (C35_perfect_fit_raises).*
* **C36 IRLS terminates within its iteration budget** - State machine invariant. *Status: proved; directives listed after UpdateIRLS do not withdraw its request to stop; exceptions allowed.*
* **C37 A stop requested by any directive is honoured** - Shared-flag model; refuted by witness; partial when UpdateIRLS precedes the stopping directive or is absent. *Status: partial; violated by the code: UpdateIRLS withdraws a stop requested by an earlier directive (C37_request_withdrawn_by_irls), and requests made in initialize are cleared (C37_request_in_initialize_is_lost); proved when no later directive withdraws.*
* **C38 Directive life cycle** - Trace semantics of run. *Status: proved; exceptions of the optimiser itself are not modelled.*
* **C39 Regularization weights follow the registered weights** - State machine with cache; refuted when a multi-key set_weights call fails half way; partial otherwise. *Status: partial; violated by the code: after a set_weights call that raises on a later key, W is stale (C39_rejected_call_is_stale); proved for histories in which rejected calls are rejected on their first key.*
* **C40 Regularization value, gradient and Hessian** - Matrix model, HasFDerivAt. *Status: proved; units other than radian; weights not negative.*
* **C41 Sparse-norm IRLS weights** - Real powers. *Status: partial; violated by the code: all weights are zero for a zero residual with scaling and a norm below 1 (C41_zero_weights); everything else proved.*
* **C42 Sparse norms assignment is atomic** - State machine with rollback. *Status: partial; violated by the code after a component norm or the list given earlier was changed (C42_component_edit_lost, C42_list_edit_lost); proved when norms are only assigned through norms.*
* **C43 Length scales and alphas are consistent** - State machine. *Status: proved; negative length scales are accepted (C43_negative_length_scale); NaN not modelled.*
* **C44 Angle wrapping** - Real floor-mod. *Status: proved; real arithmetic.*
* **C45 Probing estimates exact diagonals** - Finite sums. *Status: partial; exact for the stated pattern and not otherwise; with the default k the function raises (C45_default_raises), against its signature.*
* **C46 Effective-medium bounds are ordered** - Field inequality. *Status: partial; violated by the code: the two Hashin-Shtrikman bounds are returned in the wrong order (C46_hs_swapped); everything else proved.*
* **C47 Time-stepping sensitivities are adjoint** - Induction over time steps on the block bidiagonal system of the Richards equation. *Status: partial; violated by the code: Jtvec without fields raises (C47_jtvec_needs_fields); adjointness, lengths and agreement with Jfull proved for exact solvers.*
* **C48 Block selection** - List filter specification. *Status: proved; corners of the dimension of the mesh; corners of a lower dimension may be accepted (C48_dimension_not_checked).*
* **C49 Input validators accept exactly the documented set** - Except-valued validators. *Status: partial; violated by the code: NaN passes validate_float (C49_float_nan), non-integers are truncated (C49_integer_truncates); everything else proved.*
* **C50 Newton root finder** - Loop model. *Status: partial; one more step than maxIter is made (C50_one_step_too_many); everything else proved with bound maxIter + 1.*
* **C51 A sum of maps is the sum of its members** - Lists of maps with an explicit accumulator array, aliasing included. *Status: partial; violated when the first member returns its argument itself (C51_identity_first_corrupts); proved otherwise.*
* **C52 Surjection maps copy the right model value to every cell** - Index arithmetic of repeat/tile/indicator matrices. *Status: proved.*
* **C53 Model assignment reaches nested modelers, or changes nothing** - Node with children and rollback; induction over the children. *Status: proved.*
* **C54 Projected Gauss-Newton search direction** - Masked conjugate gradient recursion; descent by the quadratic-form argument. *Status: proved; for preconditioners that do not couple active and free cells (every diagonal one); otherwise false (C54_coupled_preconditioner_ascends).*
* **C55 Parallel sum simulation equals the serial sum** - Reduction over chunks, compared with the flat sum. *Status: partial; violated by the code with fewer processes than simulations (C55_sum_is_wrong).*
* **C56 An inversion with UpdateIRLS can be run again** - Two runs of the directive state machine. *Status: partial; violated by the code: norms are lost if IRLS had not started (C56_norms_lost), the cooling factor if it had (C56_cooling_lost), and the IRLS weights of the first run stay (C56_weights_kept).*
* **C57 Layered models put every value into its layer** - Sorted-list model of the layer loops. *Status: partial; violated by the code: tops and values are sorted independently (C57_ascending_values_swapped), the two-layer model is upside down (C57_two_layer_upside_down); proved for tops in descending order.*
* **C58 Effective medium map solves the balance condition** - Real functions; monotone balance function, intermediate value theorem, implicit derivative; one pass shrinks ratios of conductivities strictly, so the iterates converge by compactness (EffectiveConverge.lean); aligned inclusions as 3 by 3 matrices with products entry by entry, which stay diagonal and reduce to one iteration per axis (EffectiveAligned.lean). *Status: partial; violated by the code: results depend on earlier calls (C58_history), the tolerance on earlier settings (C58_tolerance_stale), fractions outside [0,1] spread (C58_out_of_range), aligned inclusions count through the diagonal of their tensor only (C58_aligned_violated_*), three cells share one tensor; bounds, uniqueness, existence, convergence of the iteration from every start, termination for every tolerance proved for both orientations, accuracy for small tolerances, inverse and derivative for random orientation.*
* **C59 Coordinate conversions are inverse to each other** - Real trigonometry. *Status: partial; exact up to the 1e-8 the code adds to the amplitude; at the poles and for zero amplitude the azimuth is not recovered.*
* **C60 Richards sensitivities are the derivatives of the predicted data** - Frechet derivatives of the implicit time-stepping recursion. *Status: partial; violated by the code for method="head" (C60_head_method_wrong); proved for method="mixed" with heads that solve the equations and depend differentiably on the model.*
* **C61 Empirical hydraulic curves return exact derivatives** - HasDerivAt for every curve and parameter. *Status: proved; nonzero heads; real arithmetic.*
* **C62 Empirical hydraulic curves stay in their physical range** - Real inequalities. *Status: proved; real arithmetic; monotonicity for Haverkamp only.*
* **C63 DC sensitivities are the derivatives of the predicted data** - Frechet derivative of the solution of a parametrised linear system (Verif/JacobianK.lean), then the receiver loops by induction. *Status: partial; violated by the code for single potential electrodes with Neumann boundaries (C63_neumann_pole_wrong); proved for all other cases, with exact solvers.*
* **C64 DC sensitivities: adjoint and stored matrix agree with Jvec** - Transposition of the same products, lists of data by induction. *Status: partial; violated by the code for single potential electrodes with Neumann boundaries (C64_neumann_pole_wrong); proved for all other cases, with exact solvers and symmetric inner products.*
* **C65 A miniaturised survey gives the same data** - List model of np.unique, masks and add.at; mini survey shown to hold exactly the pairs; superposition identity per datum. *Status: partial; violated by the code: currents (C65_current_ignored), apparent resistivities (C65_apparent_resistivity_ignored) and coinciding dipole electrodes (C65_degenerate_dipole) are mishandled; proved for unit currents and voltages when pole-pole potentials are reciprocal.*
* **C66 DC results do not depend on earlier calls** - State machine over an uninterpreted World; invariant over histories; witnesses for each excluded call. *Status: partial; violated by the code after replacing survey or map, for fields of an earlier model and for getJtJdiag; proved for all other histories (C66_history_partial).*
* **C67 Property mass matrix derivatives are exact and adjoint** - Inner products by coefficients; matrix identities over real or complex scalars. *Status: partial; violated by the code for the derivative of the inverse of an inner product that is not diagonal (C67_inverse_needs_diagonal); everything else proved.*
* **C68 Frequency domain sensitivities are right** - Mass matrices with derivatives (Verif/EM/Mass.lean), solution of a residual differentiated by Verif/JacobianM.lean, a generic simulation with receiver loops (Verif/FDEM/Sim.lean), then every term of the four formulations (EB.lean, HJ.lean) and of the sources (Sources.lean); wrong cases on one-cell simulations. *Status: partial; violated by the code: permeability maps with several sources per frequency (C68_violated_shared_frequency), current density receivers with a primary electric field (C68_violated_E_j, C68_violated_B_j), dipoles in the HJ formulations with a permeability map (C68_violated_dipole_mu); proved for everything else, without permittivity.*
* **C69 Frequency domain fields satisfy Maxwell's equations** - Specification: discrete Maxwell equations (Verif/FDEM/Maxwell.lean); linear algebra for each formulation, uniqueness for the comparison, symmetry of the system for reciprocity; cases in Cases.lean. *Status: partial; violated by the code for current density receivers with a primary electric field (C69_violated_j); everything else proved, without permittivity.*
* **C70 Frequency grouping visits every source once** - List model of the survey dictionaries (Verif/FDEM/Survey.lean), permutation argument. *Status: partial; violated by the code after changes of the source list or of a frequency (C70_source_list_stale, C70_frequency_stale); proved for surveys as built.*
* **C71 Fields of several sources are the fields of each** - Arrays as lists of columns, loops by induction (Verif/FDEM/Columns.lean). *Status: partial; violated by the code for b, bSecondary and h of the electric field formulation (C71_violated_electric_field); everything else proved.*
* **C72 Time domain fields solve Maxwell's equations in time** - Generic time stepping (Verif/TDEM/Sim.lean), the four formulations (EB.lean, HJ.lean); specification and proofs in Maxwell.lean, solvability in Solvable.lean; cases and violations in Cases.lean. *Status: partial; violated by the code: steps which change by less than dt_threshold are solved with the factors of another step (C72_violated_threshold), the current density simulation divides the source increment by the next step and drops the last one (C72_violated_current_density, C72_violated_current_density_last); proved otherwise.*
* **C73 Time domain sensitivities** - Frechet derivative of the recursion by induction over the steps; back substitution by induction; each term of matrices, right hand sides, fields and initial conditions. *Status: partial; violated by the code: Jvec with receivers at the last time (C73_Jvec_violated_last), Jtvec for grounded sources (C73_Jtvec_violated_galvanic, C73_Jtvec_violated_single, C73_Jtvec_violated_initial); everything else proved, with exact solvers.*
* **C74 Formulations of the time domain problem agree** - Uniqueness of the solution of the time discrete Maxwell equations. *Status: partial; violated by the code for the current density simulation where the time step changes (C74_violated_HJ); the other cases proved.*
* **C75 Conservation of charge and flux in time domain simulations** - Induction over the steps with curl grad = 0 and div curl = 0 (Laws.lean). *Status: partial; violated by the code for steps which change by less than dt_threshold (C76_violated_threshold); the current density simulation conserves charge only for sources that are steady where the time step changes and at the end.*
* **C76 Time stepping is unconditionally stable** - Energy argument for the backward Euler rule, induction over the steps (Laws.lean). *Status: partial; violated by the code for steps which change by less than dt_threshold (C76_violated_threshold); proved for all other step lists.*
* **C77 Waveform currents and their derivatives are consistent** - Each waveform as a function of a real time (Verif/TDEM/Waveforms.lean, Piecewise.lean); derivatives by germs on each branch, integrals by the fundamental theorem of calculus off finitely many times. *Status: partial; violated by the code: a step waveform switched off before time zero is on again at time zero (C77_violated_step_off), a ramp with positive epsilon jumps (C77_violated_ramp_off), VTEM is negative before time zero while its derivative is zero (C77_violated_vtem), off_time of trapezoids and triangles is not used (C77_violated_off_time, C77_violated_triangular), overlapping ramps are accepted (C77_violated_overlap); proved otherwise. RawWaveform is the function of the user and not modelled.*
* **C78 Time domain sources drive the fields as their current and waveform say** - LineCurrent, MagDipole and CircularLoop as sources of the time stepping model, with an arbitrary waveform (Verif/TDEM/Sources.lean); proportionality and static solutions by induction over the steps. *Status: partial; violated by the code: the boundary part of the initial field of closed wires in the magnetic field formulation is not multiplied by the current (C78_violated_proportional), dipoles with initial fields need two steps (C78_violated_dipole_single) and ignore the waveform below time_steps[1] (C78_violated_dipole_late), the initial fields assume a unit waveform (C78_violated_initial_current) and use time zero (C78_violated_time_zero); proved otherwise.*
* **C79 Source terms are those of the present attributes and mesh** - Source objects as state machines with lazily filled attributes, including the name mangling of __dipole (Verif/EM/SourceCache.lean); invariants of the memory over all histories; mesh operators and geoana are arbitrary functions. *Status: partial; violated by the code: wires keep the first mesh and path (C79_violated_line_current), time domain dipoles and loops their first attributes (C79_violated_dipole, C79_violated_dipole_initial, C79_violated_loop), 1D primary fields their first value (C79_violated_dipole_primary); frequency domain dipoles and the current of a wire are right after every history.*
* **C80 The cross-gradient term measures how far two properties are from having parallel gradients** - Block matrices over two properties (Verif/Reg/CrossGradient.lean); Lagrange identity, Cauchy-Schwarz for the cells, Frechet derivatives of the value and the gradient. *Status: partial; violated by the code: registered weights are ignored (C80_violated_weights) and the two dimensional magnitude is signed (C80_violated_magnitude); everything else proved. The default Hessian is an approximation (C80_approximation_psd), the exact one is not convex (C80_not_convex).*
* **C81 Joint total variation is a smooth convex function of any number of properties** - Any number of properties as a product index (Verif/Reg/Joint.lean); derivative of the root, Cauchy-Schwarz for convexity. *Status: partial; violated by the code for eps = 0, which is accepted (C81_violated_eps); proved for positive eps, volumes and non negative weights.*
* **C82 The linear correspondence term is the squared residual of the linear relation** - Verif/Reg/Joint.lean; the term is a quadratic function. *Status: partial; violated by the code: the size of the wires is not compared with the mesh (C82_violated_size); everything else proved.*
* **C83 Full gradient smoothness penalises the gradient along the given directions with the given weights** - Construction of the tensors from every shape of weights and directions, and the term on arbitrary projections to corners (Verif/Reg/FullGradient.lean). *Status: partial; violated by the code: directions per active cell are refused by the orthogonality check (C83_violated_active_dirs), as is the documented example (C83_violated_documented_example); the Hessian is that of the value for linear mappings.*
* **C84 Vector regularizations measure direction and amplitude as documented** - Weights by their shape, cross products as sparse matrices, amplitudes as row norms (Verif/Reg/Vector.lean); the cross reference uses the generic term of C40. *Status: partial; violated by the code: component weights do not enter by their geometric mean (C84_violated_geometric_mean), are ignored or raise for shape (nC, n) (C84_violated_ignored_weights, C84_violated_smooth_weights), the amplitude gradient is wrong for nonlinear mappings (C84_violated_gradient), smoothness of amplitudes is that of the vectors (C84_violated_amplitude_smoothness), reference directions of the documented shape are refused (C84_violated_ref_shape); proved otherwise.*
* **C85 The operators of the regularization mesh live on the active cells only and follow the active cells** - The faces of one direction as pairs of optional cells (Verif/Reg/Mesh.lean), the operators of discretize as documented there; the memory of the object as a state machine over all histories. *Status: partial; violated by the code: on tensor meshes averages from faces to cells do not preserve constants at the edge of the active cells (C85_violated_average), the array of active cells is kept without a copy (C85_violated_alias), indices equal to those in force are refused and on two cells others are accepted (C85_violated_indices); proved otherwise.*
* **C86 Smoothness of angles does not depend on how the angles are wound** - Verif/Reg/Radian.lean on the mesh of C85 and the coterminal angle of C44; the derivative from the locally constant winding number. *Status: proved; on tensor meshes; the gradient away from opposite directions, where the value has a corner.*
* **C87 Every engine and storage mode of a potential field simulation orders the data by receiver list, location and component** - Arrays as lists with slices, loops over receivers by induction (Verif/PF/Layout.lean); specification: the list of (receiver, location, component) in order. *Status: partial; violated by the code: the forward-only diagonal of choclo uses the weights of the first data of a receiver for every component (C87_violated_diagonal) and of the first receiver for every receiver (C87_violated_receivers); everything else proved.*
* **C88 An entry of a potential field matrix is the integral of the named derivative of the Green's function over the cell, whichever engine and whichever other components are asked for** - Nodes, corners and both engines from kernels which are arbitrary functions (Verif/PF/Kernel.lean); telescoping sums, the fundamental theorem of calculus, a table of the values of node_evals for every list of components. *Status: partial; violated by the code: a magnetization assigned by the user is ignored by choclo (C88_violated_magnetization), and for a negative amplitude the engines disagree (C88_violated_amplitude); everything else proved. The kernels of geoana and choclo are arbitrary functions related by what their names say.*
* **C89 Sensitivities of potential field simulations are the derivatives of their data** - Frechet derivatives (Verif/PF/Sens.lean); amplitudes by the index 3 i + c. *Status: partial; violated by the code: getJtJdiag drops the products of different cells when a parameter is shared (C89_violated_diagonal) and raises for amplitude data without weights (C89_violated_amplitude_default); proved otherwise.*
* **C90 What a potential field simulation remembers never shows in its results** - State machine over all histories with uninterpreted results (Verif/PF/Cache.lean). *Status: partial; violated by the code: the matrix and the diagonal survive changes of settings (C90_violated_settings), the direction of the field is remembered by itself (C90_violated_direction), close models share the derivative of amplitudes (C90_violated_close_models), and any file of the right shape is used by geoana (C90_violated_file); proved while settings are fixed.*
* **C91 With several data misfits the inversion stops when, and only when, all of them have reached their targets** - Directive in the framework of C37/C38 over arbitrary other directives (Verif/Directives/Joint.lean); the attributes of the object as a state machine. *Status: partial; violated by the code: targets of an earlier inversion are kept (C91_violated_reuse), a single target tests the first misfit only (C91_violated_short_target), the weights of the clustering part are always ignored (C91_violated_weights); proved otherwise.*
* **C92 JointScalingSchedule rebalances the misfits towards those that are not fitted** - Verif/Directives/Joint.lean; multipliers as list or array; invariant of a run. *Status: partial; violated by the code: placed before MultiTargetMisfits it uses the misfits of the iteration before (C92_violated_order), multipliers in a list raise (C92_violated_list), and without MultiTargetMisfits it raises at the end of the first iteration (C92_violated_no_target); proved otherwise.*
* **C93 The power iteration returns a Rayleigh quotient that never exceeds the largest eigenvalue and converges to it** - Powers of a symmetric matrix in an orthonormal eigenbasis (Verif/Directives/Power.lean); Cauchy-Schwarz for monotonicity, a geometric bound for the rate. *Status: proved; for symmetric positive semidefinite Hessians; deriv2 is a matrix that does not change during the iteration.*
* **C94 Starting values from eigenvalues make the parts of the objective function comparable, in any units, once** - Verif/Directives/Estimate.lean on the power iteration of C93. *Status: partial; violated by the code: division by zero at the zero model (C94_violated_zero_model), n_pw_iter ignored by ScalingMultipleDataMisfits_ByEig (C94_violated_iterations), smoothness multipliers compound when initialized again (C94_violated_alphas_again) and single terms raise (C94_violated_alphas_single); proved otherwise.*
* **C95 UpdatePreconditioner supplies the Jacobi preconditioner of the current Hessian** - The diagonal of the directive against the diagonal of deriv2 (Verif/Directives/Precond.lean). *Status: partial; violated by the code: the factor two of the data misfit (C95_violated_factor) and the multipliers (C95_violated_multipliers) are missing, and a schedule after the directive leaves an old preconditioner (C95_violated_order); within a factor of two for multipliers of one, symmetric and positive.*
* **C96 Sensitivity weights are relative sensitivities of each parameter** - Sums over regularizations and selected parameters, real square roots, percentiles of sorted lists (Verif/Directives/Weights.lean). *Status: partial; violated by the code: division by zero without sensitivity (C96_violated_no_sensitivity, C96_violated_minimum), and parameters of several regularizations are counted several times (C96_violated_counted_twice); proved otherwise.*
* **C97 A list of directives that is accepted works on current values** - Positions in lists (Verif/Directives/Order.lean); directives with arbitrary behaviour within a table of what they write. *Status: partial; violated by the code: accepted lists with the preconditioner before the estimator (C97_violated_precond_before_beta), with estimators before weights (C97_violated_beta_before_weights) and with spherical weights after UpdateIRLS (C97_violated_spherical); the set of accepted lists is characterised exactly.*
* **C98 In joint inversions with a coupling term every pair of misfit and regularization is steered by its own misfit** - Values as lists with filters (Verif/Directives/Sim.lean); induction over the history of iterations; saved lists as references into a store. *Status: partial; violated by the code: functions with multiplier zero shift the values (C98_violated_zero, C98_violated_pairs), targets are kept from the first reading (C98_violated_target), misfits below their target prevent the stop (C98_violated_overfit), saved trade-off parameters are aliased (C98_violated_saved) and files cannot be loaded (C98_violated_load); proved otherwise.*
* **C99 Saving directives write one file per iteration and report the parts of the objective function** - File names as character lists (Verif/Directives/Save.lean); lexicographic order of zero-filled numbers; table rows against the value of the regularization. *Status: partial; violated by the code: a name with a dot makes all iterations write one file (C99_violated_dot), outer multipliers are missing from the columns (C99_violated_multiplier), load_results never succeeds (C99_violated_load), the dictionary keeps the last of several sparse regularizations (C99_violated_dict); proved otherwise.*
* **C100 Natural source receivers return the transfer functions between the fields** - Projections as arbitrary matrices, fields of two polarisations as matrices with two columns (Verif/NSEM/Receivers.lean); Cramer's rule against the defining equations (Verif/NSEM/Props.lean). *Status: partial; violated by the code: admittance data are not the row of the admittance (C100_violated_admittance) and depend on the polarisations (C100_violated_polarisation), locations_h is ignored in one dimension (C100_violated_locations); proved otherwise.*
* **C101 Natural source receivers are differentiated correctly** - Derivatives along arbitrary paths of fields, adjoints as identities of sums (Verif/NSEM/Deriv.lean); numpy broadcasting of shapes for the matrix-valued adjoints. *Status: partial; violated by the code: the adjoint used by getJ raises for several locations of admittance and apparent conductivity receivers (C101_violated_getJ), xx and yy impedances in one and two dimensions break the products (C101_violated_diagonal); derivatives and adjoints proved.*
* **C102 One- and two-dimensional natural source simulations solve Maxwell's equations and have correct sensitivities** - One form for all four simulations in the framework of C68 (Verif/NSEM/Sim.lean); boundary values as terms with exact derivatives, so the one-dimensional simulations compose with the two-dimensional one; the kept boundary fields as a state machine. *Status: partial; violated by the code: boundary fields are kept when a property is set (C102_violated_stale), the widths on tree meshes are off by the origin (C102_violated_widths), a permeability per cell without a map is used wrongly (C102_violated_direct); Maxwell equations and sensitivities proved.*
* **C103 Two-and-a-half dimensional resistivity data are the quadrature of the wavenumber solutions and have correct sensitivities** - One form for both discretizations, per wavenumber (Verif/DC/Sim2D.lean), on the operators of C63; loops over wavenumbers, sources and receivers by induction. *Status: proved; for receivers of potentials; receivers of electric fields or currents cannot be predicted in 2.5D.*
* **C104 Sensitivities of the two-and-a-half dimensional nodal simulation are those of the present model** - The kept boundary derivative as a state machine over all histories of calls (Verif/DC/Sim2D.lean). *Status: partial; violated by the code: the boundary derivative of the nodal simulation is never cleared, so sensitivities after a second model are wrong (C104_violated_stale); proved otherwise (C104_history_partial).*
* **C105 Settings of the two-and-a-half dimensional simulation take effect when changed** - Settings and kept matrices as a state machine (Verif/DC/Settings2D.lean), against a new simulation. *Status: partial; violated by the code: boundary matrices survive a change of bc_type (C105_violated_bc) and of surface_faces (C105_violated_surface), nky has no effect or makes the prediction raise (C105_violated_nky); proved otherwise.*
* **C106 Wavenumber quadratures integrate what they claim** - Lists of weights against interval integrals of the piecewise linear interpolant; normal equations (Verif/DC/Settings2D.lean). *Status: proved; the optimised wavenumbers are the output of an arbitrary minimiser; the Bessel function is an arbitrary function.*
* **C107 Straight ray travel times are line integrals of slowness** - The length by its four crossing distances in the extended reals (Verif/Seismic/Ray.lean); Lebesgue measure of the part of the segment in the cell; sums over cells become integrals because almost every point of the ray lies in one open cell. *Status: partial; violated by the code: rays along a line between cells are counted in both cells (C107_violated_grid_line); proved for all other rays of positive length.*
* **C108 Linear simulations predict G times the mapped model and have exact sensitivities for the present settings** - Matrices and Frechet derivatives, kept attributes as state machines (Verif/Linear/Sim.lean); the trapezoidal rule by interval integrals. *Status: partial; violated by the code: settings of the kernels changed after the first use (C108_violated_settings) and a new survey of straight rays after a prediction (C108_violated_survey) have no effect; proved otherwise.*
* **C109 Times of a time domain simulation are those of its present steps** - State machine over all assignments (Verif/Linear/Sim.lean), running sums by induction. *Status: proved; the widths are unpacked as documented by discretize; changing the array of steps in place is not modelled.*
* **C110 Time domain fields return what was stored for every selection of sources and times** - Arrays as shape and values in Fortran order, numpy selections as functions of the flat position (Verif/Fields/Time.lean). *Status: partial; violated by the code: lists of several sources with lists of several times raise (C110_violated_lists) or store only some entries (C110_violated_scalar), computed fields raise for arrays of times (C110_violated_array); proved otherwise.*
* **C111 Induced polarization data are the change of the resistivity data** - The resistivity operators of C63 and C103 with the derivative of the property replaced (Verif/DC/IP.lean); the data as a function of the logarithm of conductivity and its Frechet derivative; homogeneity of degree minus one by uniqueness of the solves. *Status: partial; violated by the code: for chargeability maps which are not linear the prediction is the derivative of the map applied to the model (C111_violated_map) and Jvec is not its derivative (C111_violated_jvec); one added to the first diagonal entry breaks the scaling with conductivity of the 2.5D cell centred simulation with Neumann conditions (C111_violated_scaling, hence C111_scaling_cell2_partial and C111_uniform_cell2_partial); proved otherwise.*
* **C112 Induced polarization results do not depend on the history of calls** - State machine of everything the simulation keeps, mathematics uninterpreted (Verif/DC/IPCache.lean); an invariant over all histories. *Status: partial; violated by the code: dpred with given fields returns the prediction made last (C112_violated_prediction), a new conductivity is mixed with the old fields (C112_violated_sigma), derivatives of maps which are not linear are kept (C112_violated_map) and weights of the first diagonal are kept (C112_violated_diagonal); all other histories proved (C112_history_partial).*
* **C113 Geometric factors and apparent resistivities** - Surveys as lists of sources with receivers (Verif/DC/Geometry.lean); distances in Euclidean space, absent electrodes at distance infinity as None; the loops against one formula per datum. *Status: partial; violated by the code: apparent resistivities predicted by receivers are not divided by the current (C113_violated_current); apparent_resistivity_from_voltage adds eps to the factor and takes absolute values (C113_violated_from_voltage), so it is proved with that error (C113_from_voltage_partial); multipoles are refused (C113_multipole); the documented horizontal distance is the distance with elevation.*
* **C114 Electrode arrays of a survey and draping on topography** - Arrays, draping and kept locations as a state machine (Verif/DC/Electrodes.lean); unique locations and inverse indices as in the code. *Status: partial; violated by the code: sources without receivers and multipoles cannot be draped (C114_violated_empty_source, C114_violated_multipole), a new source list leaves the old arrays (C114_violated_stale); proved otherwise.*
* **C115 Source terms of resistivity carry the current of the electrodes** - Index assignment as a fold of updates, nodal terms as sums (Verif/DC/Electrodes.lean). *Status: partial; violated by the code: of two electrodes nearest to the same cell only the last current is kept (C115_violated_same_cell); proved otherwise; interpolation matrices are arbitrary.*
* **C116 Discrete topography and points draped on it** - Columns of cells with vertical nodes, the nearest column any minimiser of the distance (Verif/Utils/Topo.lean); per-axis argument for equal widths. *Status: partial; violated by the code: with different widths the nearest centre is not that of the containing column (C116_violated_widths); proved for equal horizontal widths; tree meshes are not modelled.*
* **C117 Splitting a 3D resistivity survey into 2D lines keeps every datum** - Surveys as lists of electrode rows (Verif/DC/Lines.lean); lines by identifiers, distances along the line from the first to the last source position, all receivers of a source position; counting of rows by induction. *Status: partial; violated by the code: sources at one position but different elevations each get all receivers of the position (C117_violated_elevation), a single position gives no direction (C117_violated_single), currents are dropped (C117_violated_current), dipoles across a line become poles (C117_violated_across); proved for the remaining surveys.*
* **C118 Pseudo-chargeability follows the pulses and its derivatives are exact** - Real functions of one cell; chain rule for the three derivatives at every term of the pulse sum; exchange of summations for the pulse train (Verif/DC/SIP.lean). *Status: proved; for the class of positive times and time constants, where the decay is smooth.*
* **C119 Spectral induced polarization: predictions, sensitivities and their order** - The sensitivity of C111 as given rows; lists of data time by time as in the loops, derivative of lists (Verif/DC/Sim2D.lean); data vectors cut receiver by receiver as in the index dictionary; adjoint by induction over times and receivers (Verif/DC/SIP.lean). *Status: partial; violated by the code: predictions are ordered by time and data by receiver, so Jtvec without stored sensitivities is not the adjoint with several receivers (C119_violated_adjoint) and indexing returns other data (C119_violated_index); receivers with different times break Jvec and Jtvec (C119_violated_times); proved otherwise, and for stored sensitivities.*
* **C120 Spectral induced polarization results do not depend on the history of calls** - State machine of stored properties, derivatives, predictions and sensitivities (Verif/DC/SIPState.lean); invariant: stored properties belong to the last evaluated model, derivatives to the current one. *Status: partial; violated by the code: stored sensitivities mix the properties of the last evaluated model with the derivatives of the current one (C120_violated_stored), fields handed over return predictions of another model (C120_violated_given); proved for all other histories.*
* **C121 Apparent chargeability is divided by the voltage of its own source** - Voltages and scaled projections kept by receivers, fold over all pairs of sources and receivers, iterated calls (Verif/DC/SIPState.lean). *Status: partial; violated by the code for receivers shared by sources (C121_violated_shared); proved otherwise for any number of calls.*
* **C122 Self potential: charges, predictions and sensitivities** - Mesh as cells and oriented faces; divergence, averages and face masses as in the operators (Verif/DC/SelfPotential.lean); exchange of sums over cells and faces; chain rule for linear solves. *Status: partial; violated by the code: faces between active cells of different volumes are taken for boundaries (C122_violated_volumes), all cells active differs from the default (C122_violated_default), the hydraulic head map has the opposite sign of its documentation (C122_violated_sign), Jtvec is not the adjoint for Neumann conditions (C122_violated_neumann); proved otherwise.*
* **C123 Self potential results do not depend on the history of calls** - State machine of the stored sensitivity matrix and diagonal (Verif/DC/SelfPotential.lean), invariants by induction over histories. *Status: partial; violated by the code: without storeJ the sensitivity matrix is kept for maps which are not linear (C123_violated_getJ), diagonals are always kept (C123_violated_diag); products are proved fresh for every history.*
* **C124 Derivatives of parametric maps are exact** - One cell at a time: the value as a real function of the parameter vector, its derivative row as in deriv, HasFDerivAt by rules for sums, products and the smooth step (Verif/Maps/Parametric.lean); polynomial and spline interfaces with arbitrary many coefficients, flattening orders explicit, finite difference loop of the spline as written, B-splines as functions linear in the node values (Verif/Maps/ParametricInterface.lean). *Status: partial; violated by the code: the 3D polynomial map orders coefficients differently in map and derivative (C124_violated_poly3), so it is proved if one order is zero (C124_poly3_partial); the spline derivative is zero for the default normal (C124_violated_spline2) and for top nodes in 3D (C124_violated_spline3), raises before the first evaluation and goes stale (C124_violated_spline_first, C124_violated_spline_stale), so C124_spline2_partial; the circle has no derivative at its centre (C124_circle_centre); all other maps proved in one to three dimensions.*
* **C125 Parameters of parametric maps have their documented meaning** - Limits of arctan steps at infinity, products and sums of limits (Verif/Maps/Parametric.lean). *Status: partial; violated by the code: the documented background and circle values of ParametricCircleMap are exchanged (C125_violated_circle), the documented formula of the layer is a difference, the code a product (C125_violated_layer_formula); limits proved for the other maps; no limit is stated for splines.*
* **C126 Parametric maps stay between the values of their units** - Steps lie between 0 and 1; convex combinations (Verif/Maps/Parametric.lean, ParametricInterface.lean). *Status: proved; splines as arbitrary interfaces.*
* **C127 Parametric maps follow their active cells** - State machine of active cells and the three cached coordinates (Verif/Maps/ParametricState.lean); invariant over all histories. *Status: partial; violated by the code: coordinates are kept when active cells change (C127_violated), and may belong to different cells (C127_violated_mixed); proved if active cells are set before the first evaluation (C127_partial), and for the polynomial map, which reads them each time (C127_poly).*
* **C128 Line currents on edges conserve charge and integrate the wire** - Wires as lists of points, segments cut at sorted crossing parameters as in the code (Verif/EM/LineCurrent.lean); Simpson rule exact for products of two linear functions; every part lies in one cell, sums telescope by induction; integrals by interval integrals. Tree meshes: cells with twelve edges and an arbitrary deflation matrix, exit parameters as in the code, pairing with trilinear potentials (Verif/EM/LineTree.lean). *Status: partial; violated by the code: a wire beyond the last but one node of an axis raises (C128_violated_last_cell); on tree meshes only the first vertex is checked and the wrong error raised (C128_violated_tree_check); proved for all other wires whose components are zero or above the tolerance; the cells a tree mesh returns along a segment are assumed to contain it.*
* **C129 Line currents through faces conserve charge** - Wires as lists of cells, currents as functions on faces, slices as index conditions (Verif/EM/LineFaces.lean); divergence by counting crossings, induction over segments. *Status: partial; violated by the code: the current flows against the wire, opposite to the edge source term (C129_violated_direction), two points in one cell raise (C129_violated_same_cell), a second turn is lost (C129_violated_turns), wires far from the origin are taken for loops and rejected (C129_violated_origin); conservation proved for wires which do not use a face twice.*
* **C130 Petrophysical smallness in least-squares form: value, gradient, Hessian** - Entries of a model as pairs of property and cell; precisions by covariance type; gradient and Jacobian by the calculus of Verif/Analysis.lean; one quadratic form for all types (Verif/Reg/PGI.lean). *Status: partial; violated by the code: the matrix deriv2(m) multiplies map derivatives and precisions in the wrong order, so it is not symmetric for correlated properties whose maps differ (C130_violated_hessian, hence C130_matrix_partial); units with equal means are confused (C130_violated_same_mean); value, gradient and Hessian product proved for linear relationships.*
* **C131 Full mixture form of the petrophysical smallness** - Log-probabilities from Cholesky factors as in scikit-learn, log-sum-exp; densities by determinants; gradient by the chain rule; bounds by one term against the sum (Verif/Reg/PGIFull.lean). *Status: partial; violated by the code: Hessian matrix not symmetric for differing maps (C131_violated_hessian, hence C131_hessian_partial), gradient raises with local proportions (C131_violated_local); value, gradient and bounds proved.*
* **C132 Petrophysical smallness over a history of calls and updates** - State machine of mixture, reference model and kept block (Verif/Reg/PGIState.lean); invariant over histories; prediction of scikit-learn uninterpreted. *Status: partial; violated by the code: the first evaluated model decides the reference (C132_violated_first_model), mixtures or references set by the user and updates with all cells fixed leave the old Hessian block (C132_violated_gmm, C132_violated_reference, C132_violated_fixed); proved for all histories of evaluations and directive updates with a free cell.*
* **C133 Updating a Gaussian mixture with priors** - Sorting by any argsort permutation, the matching loop with its list of remaining units, the update formulas entry by entry (Verif/Utils/GMM.lean); limits for unlimited confidence. *Status: partial; violated by the code: mappings are not sorted with the units (C133_violated_mapping), matchings which are not swaps go to the wrong unit (C133_violated_match), proportions do not sum to one with non-linear relationships (C133_violated_m_step), full priors give asymmetric covariances (C133_violated_full); proved otherwise; the E step and scikit-learn are not modelled.*
* **C134 Schedule of trade-off and petrophysical weight** - One step per iteration with the misfits at its end, any sequence of misfits (Verif/Directives/PGI.lean); all changes classified by one inductive relation, then invariants over runs; directive lists for initialisation; terms of a regularization as a tree. *Status: partial; violated by the code: the tolerance is ignored in the first phase (C134_violated_tolerance), minimum and maximum are passed by the last change (C134_violated_limits, hence C134_betamin_partial), the learned reference model never reaches the smoothness terms (C134_violated_add_mref); proved otherwise for every run.*
* **C135 Polynomial petrophysical relationships** - Polynomials as coefficient lists, derivative as numpy computes it (Verif/Maps/Clustering.lean). *Status: partial; violated by the code: deriv is the transpose of the Jacobian (C135_violated_deriv), only the first cell is used for several (C135_violated_rows), the gradient with relationships of higher degree is wrong (C135_violated_gradient); proved for affine relationships.*
* **C136 Layered magnetotelluric impedance solves Maxwell's equations and has exact sensitivities** - Both loops as recursions over layers with complex principal roots (Verif/NSEM/Layered.lean). Specification: one-sided derivatives of E and H in each layer. Boundedness removes the growing wave below; the energy flux Re(E conj H) and Im(E conj H) decrease upwards, so no denominator vanishes and the impedance stays in the third quadrant; layers by exponentials of E -+ rH. A field is constructed for every model. The reverse sweep by induction over layers. *Status: proved; real arithmetic; thicknesses may be zero.*
* **C137 Layered magnetotelluric data, sensitivities and stored results** - Surveys as lists of sources and receivers, frequency index by searchsorted, the row kept between passes of the loop, optional maps (Verif/NSEM/LayeredData.lean); state machine of stored matrix and diagonal. *Status: partial; violated by the code: receivers with several locations give one datum but several rows (C137_violated_locations), complex receivers are accepted but predict nothing and take the row of the receiver before or fail (C137_violated_complex), getJtJdiag lacks products of parameters that enter conductivity and thickness (C137_violated_diag, hence C137_diag_partial) and ignores model and weights of later calls (C137_violated_stale, hence C137_diag_fresh_partial); sensitivities proved for the other surveys.*
* **C138 Characteristic decay of viscous remanence matches the transmitter waveform** - Waveform classes as functions of a real time, windows as Python slices (Verif/VRM/Waveforms.lean); specification: superposition of x log x over the breaks of a piecewise linear current, telescoping by induction over samples. *Status: partial; violated by the code: rates of arbitrary waveforms have a wrong sign at the end of the window (C138_violated_rate), current after the last positive sample is dropped (C138_violated_bipolar, C138_violated_bipolar_case), waveforms without positive current raise IndexError (C138_violated_negative), waveforms on from their first sample decay to zero (C138_violated_first), on-time channels pass for discretised waveforms (C138_violated_unchecked); proved for steps, pulses and for waveforms that are positive inside and zero at the ends.*
* **C139 Log-uniform decay is the average of exponential relaxations, and the linear problem approximates it** - Exponential integral as an interval integral, log-uniform mean as an integral over relaxation times (Verif/VRM/LogUniform.lean); substitution, differentiation under bounds 1 - e^{-x} <= x. *Status: partial; violated by the code: the unreachable field branch of StepOff has the opposite sign (C139_violated_hidden), on-time channels are accepted (C139_violated_on_time); proved for off-time channels.*
* **C140 Inducing fields and refinement of sources of viscous remanence** - Gradient calculus for the dipole, an explicit primitive of the Biot-Savart integrand for wires, the refinement loop against findIdx, roots of a quadratic for the distance to a wire, orthogonal rotation and the nearest point of a circle for loops (Verif/VRM/Sources.lean). *Status: partial; violated by the code: locations in line with a wire give NaN (C140_violated_inline), repeated nodes refine every cell (C140_violated_repeated), the centre of a loop is never refined (C140_violated_centre); the field of CircLoop (elliptic integrals) is not modelled; proved otherwise.*
* **C141 Response of magnetized cells in viscous remanence is the field of the dipoles of the cell** - The closed formulas entry by entry with tol and the replaced corners (Verif/VRM/Geometry.lean); specification: iterated integral of the dipole kernel over the cell, by explicit primitives and the fundamental theorem; the regularisation by a bound on arctan; refinement by telescoping sums over the subcells; quadrature tables as rationals, moments by kernel evaluation, polynomials by linearity. *Status: partial; violated by the code: at the centre of a cell the responses along x and y are negative and along z positive although a cube is symmetric (C141_violated_inside); proved outside cells.*
* **C142 Predicted data of viscous remanence follow the survey's order, active channels and sensitivities** - Rows of A as a list in stacking order, T as a list of (entry, column) with shifted blocks, masks as lists of booleans (Verif/VRM/Simulation.lean); specification: nested flatMap over sources, receivers, locations and channels; induction over blocks with a prefix of rows. *Status: partial; violated by the code: inactive channels given to the constructor or assigned are not subtracted from nD (C142_violated_count); the log-uniform simulation uses the receiver index for the source (C142_violated_receivers, C142_violated_sources) and another order (C142_violated_order), hence C142_loguniform_partial; stored matrices are never renewed (C142_violated_stale), hence C142_matrix_partial; the linear simulation is proved for all surveys.*
* **C143 Hankel coefficients of layered electromagnetic simulations describe the source and the receiver** - Coefficients at one wave number as real functions (Verif/EM/Hankel.lean); specification: second derivatives of the potential of an image dipole, written with J0 and J1 and their offsets; loops by the area integral as an expansion in moments; wires by the quadrature of the vertical curl. *Status: partial; violated by the code: the coefficient of a y dipole has the square of the x component of the receiver (C143_violated_oblique, hence C143_dipole_partial), the orientation of receivers of wires is ignored (C143_violated_wire); loops, heights and wires proved.*
* **C144 Data, sensitivities and stored coefficients of layered electromagnetic simulations belong together** - Stacked rows with output index and frequency, receivers as records, exceptions as values (Verif/EM/Layered1D.lean); complex gradient rules for the derivatives; matrices for products; a state machine for the coefficients. *Status: partial; violated by the code: ppm of total-field receivers ignored (C144_violated_ppm), sensitivities to conductivity lack a factor for chargeable layers (C144_violated_chargeable, hence C144_sensitivity_partial), heights enter the sensitivities but not the fields (C144_violated_height, C144_violated_height_imag), getJtJdiag lacks products of properties (C144_violated_diag, hence C144_diag_partial), coefficients stay after a change of survey (C144_violated_survey, hence C144_coefficients_partial) and cannot be handed over in the time domain (C144_violated_transfer); reflection coefficients of geoana are parameters.*
* **C145 Complex conductivities and permeabilities of layers follow their relaxation models** - Numbers and arrays as a sum type with numpy broadcasting (Verif/EM/Relaxation.lean); bounds from the real part of the reciprocal, the mean by the fundamental theorem. *Status: partial; violated by the code: numbers together with arrays of relaxation parameters are taken by frequency or raise (C145_violated_mixed, C145_violated_mu, hence C145_sigma_partial, C145_mu_partial), the documentation of ColeCole has another formula (C145_violated_documentation); bounds, limits and the integral proved.*
* **C146 Recommended layers reach the depth and the transform to the time domain uses every filter point** - The while loop as an inductive relation, so that not returning is expressible (Verif/EM/Discretization.lean); logarithms of a regular filter reduce the counts to a ceiling; rows of A_dft by a reindexed sum; waveforms by adjacent interval integrals. *Status: partial; violated by the code: one layer loops forever (C146_violated_one_layer), times within four ratios of the filter raise (C146_violated_narrow), the smallest quadrature time is outside of the range (C146_violated_range, hence C146_range_partial); splines are assumed to interpolate, quadratures to be exact; rounding is not modelled.*
* **C147 Layered resistivity data are those of the potential over a layered Earth** - Both loops as recursions over layers (Verif/DC/Layered.lean). Specification: one-sided derivatives of potential and current density in each layer, bounded below; exponential parts are constant, a solution is constructed for every Earth; reverse sweep by induction with Frechet derivatives; rows of A_dht by a reindexed sum; a state machine for what is kept. *Status: partial; violated by the code: apparent resistivities of several data raise ValueError or are divided along the wrong axis (C147_violated_apparent, hence C147_apparent_partial), one current for several electrodes uses the first electrode only (C147_violated_current), coefficients stay after a change of survey and matrices after a change of filter (C147_violated_survey, C147_violated_filter, hence C147_histories_partial); potentials, sensitivities, superposition and reciprocity proved; interpolation by splines is a parameter.*
* **C148 A meta-simulation on a cluster gives the results of the serial one for every schedule** - Reduction by well-founded recursion for any monoid, then permutations for commutative ones; assignment loop with an invariant on the counts; a transition system for one member on the cluster, with copies on workers and pending fields, refinement to the serial program by an invariant (Verif/Meta/Dask.lean). *Status: partial; violated by the code: on one worker the first member gets none and reductions raise TypeError (C148_violated_one_worker, C148_violated_reduce), a single member never gets a worker and may use an old model (C148_violated_one_object, C148_violated_any_worker, hence C148_assigned_partial), fields not gathered before the next model race with it (C148_violated_race, hence C148_schedules_partial), repeated simulations ignore given fields (C148_violated_fields, hence C148_predictions_partial); the scheduling rules of dask are assumed.*
* **C149 Layers of equivalent sources give the data of their prisms with every engine and mode** - Loops over cells as folds on arrays (Verif/PF/EquivalentLayer.lean); restriction to the columns maps them to the abstract loops of C87, entries to those of C88; reductions over threads as any grouping whose concatenation is a permutation of the receivers. *Status: partial; violated by the code: the diagonal uses the weights of the first data for every component and receiver object (C149_violated_diagonal, hence C149_gravity_diagonal_partial, C149_magnetic_diagonal_partial), exchanged elevations are accepted and change the sign of the data (C149_violated_order); proved otherwise, in exact arithmetic; nodes of tree meshes and the kernels of geoana and choclo are parameters.*
* **C150 Depth weights and distance weights are the normalised documented weights** - Floats as reals with infinities and not-a-number; nearest-point queries as a parameter; the parallel loop as assignments in any permutation of the cells (Verif/Utils/Weights.lean). Specification: the documented weights and division by the largest one. *Status: partial; violated by the code: a threshold of zero gives not-a-number and zeros (C150_violated_zero_threshold), no reference locations give not-a-numbers (C150_violated_no_references), arrays of one axis are accepted by depth weighting (C150_violated_vector), the exponents of the two functions differ by a factor two (C150_violated_exponents); proved for positive thresholds; cKDTree and cdist are libraries, meshes of one dimension are covered for distance weighting in the shapes only.*
* **C151 The layer of cells under the topography is one cell per column** - Searches as parameters; the nearest cell lies in the column of the point because its horizontal distance is zero only there; rounds of the loop by induction (Verif/Utils/SurfaceLayer.lean). *Status: partial; violated by the code: cells wholly above the ground (C151_violated_above), TypeError for meshes with one column (C151_violated_one_column), topography with two columns (C151_violated_two_columns); proved otherwise; searches are any that return nearest points.*
* **C152 The spherical system map gives the components of vectors and its derivative** - Components by the formulas of C59; the derivative row by row with the framework of Verif/Analysis.lean; kept arrays as cells of a memory that may be overwritten (Verif/Maps/Spherical.lean). *Status: partial; violated by the code: with a mesh the map asks for one value per cell (C152_violated_mesh), angles outside the ranges and negative amplitudes reverse columns of the derivative (C152_violated_elevation, C152_violated_amplitude, hence C152_derivative_partial), arrays changed in place give the old derivative (C152_violated_in_place, hence C152_kept_partial).*
* **C153 Maps between meshes average by volume, and complex maps combine halves of the model** - The volume matrix on lists of kept rows and columns, compared with sums over all cells; caches of Mesh2Mesh by induction over histories; the two diagonals of ComplexMap as a matrix over blocks (Verif/Maps/Between.lean). *Status: partial; violated by the code: local cells not filled by active cells are divided by their whole volume (C153_violated_average), matrices of Mesh2Mesh are kept when meshes or active cells are assigned (C153_violated_m2m, hence C153_m2m_partial), the adjoint of ComplexMap is complex (C153_violated_adjoint); proved otherwise; the search for containing cells and interpolation matrices are parameters.*
* **C154 Potential field data written to UBC files are read back** - Files as lists of lines of tokens, number tokens standing for the number read back; printing by any rounding that is odd, keeps zero and signs, and is idempotent; the reading loop with a number of rounds, so that "never returns" is a statement for every number (Verif/IO/PotentialFields.lean). Gradient components by the change of axes of the tensor. *Status: partial; violated by the code: data that are all zero come back as not-a-numbers (C154_violated_zero) or, for gradients, the uncertainties come back as the data (C154_violated_gradient_zero), hence the _partial round trips for data not all zero; components other than tmi and gz are lost (C154_violated_component); writing gradients renames the components of the receiver, so that a second write fails (C154_violated_gradient_twice); readers never return for truncated files (C154_violated_short); splitting of lines into words and infinities are not modelled.*
* **C155 Surveys made from electrode locations keep every datum** - Rows of electrodes as functions on the axes; unique rows in order of first appearance, comparison with the tolerances of numpy, hstack of the indices (Verif/DC/Abmn.lean). Specification: one datum per row, order given by the sorting. *Status: partial; violated by the code: sources within a millimetre of each other that are not equal make the call fail (C155_violated_near), dipoles shorter than 1e-5 of their coordinates become poles (C155_violated_tolerance); hence the _partial theorems for sources apart from each other.*
* **C156 Tables of resistivity data are read by their headers and read back after writing** - Files as headers and rows; columns by list.index as the code does; the survey generator of C155 as a parameter (Verif/IO/Xyz.lean). Specification: values below a header. *Status: partial; violated by the code: with another column in front the data are taken from the wrong column or the call fails (C156_violated_column, hence C156_column_partial for columns in the order of the file), files with one row (C156_violated_one_row), surface data of a line take each electrode from the next column (C156_violated_surface_line); splitting of lines into words is not modelled.*
* **C157 Resistivity data written to UBC block files are read back** - Files as lists of lines of numbers; the reading loop as a state machine with its flags; writing by blocks with a running count (Verif/IO/Dcip.lean). Round trip by induction over rows and blocks; the flags by invariants over all files. *Status: partial; violated by the code: after a pole source or receiver all later ones are read as poles (C157_violated_pole_first, C157_violated_pole_receiver_first), pole and dipole receivers of one source cannot be read (C157_violated_mixed), pole receivers of surface files in three dimensions have two coordinates (C157_violated_surface_pole), dipoles in large coordinates become poles (C157_violated_tolerance), currents are not written (C157_violated_current), writing predicted voltages changes the uncertainties of the object or fails (C157_object); the _partial theorems hold for surveys of one kind; the simple format of DCIP2D is not modelled.*
* **C158 Primary fields of plane waves solve the layered problem, and total fields solve that of the model** - The finite volume system on the padded mesh as matrices, elimination of fixed nodes by submatrices (Verif/NSEM/Primary.lean). Not singular because the imaginary part of the energy is positive; decay by induction from the bottom. Secondary fields by matrix algebra; the source as an object with kept values. *Status: partial; violated by the code: the Dirichlet condition at the bottom (the default of primary_h_1d_solution) puts the field of the bottom of the mesh at the bottom of the padding (C158_violated_dirichlet); a number for sigma_primary, as documented, is refused (C158_violated_float); the conductivity of the source is ignored in one dimension (C158_violated_ignored); the field is kept when the frequency, the mesh or the primary model change (C158_violated_kept); projection of the 1D field to edges is not modelled.*
* **C159 Analytic plane wave fields and impedances of a layered Earth** - The code branch by branch with exact complex arithmetic (Verif/NSEM/Analytic.lean). Specification: the differential equations; energy flux shows that no division by zero occurs; uniqueness in layers and half-space gives the impedance; the link to C136 by uniqueness. *Status: partial; violated by the code: places above the mesh keep uninitialised memory (C159_violated_above) and scaleValue has no effect with scaleUD (C159_violated_scale); the rest is proved for every layered Earth.*
* **C160 Analytic gravity and magnetic fields of spheres satisfy the field equations** - The closed formulas branch by branch (Verif/PF/Spheres.lean). Specification: gradient of the potential of a ball in the calculus of Verif/Analysis.lean, conditions at the surface of the sphere, divergence; gluing of the branches at the surface. *Status: partial; violated by the code: the gradient tensor inside of the sphere is never that of the derivatives (C160_violated_inside), nothing is returned at the centre (C160_violated_centre), locations given as integers cut the mass (C160_violated_integers), arrays of different sizes are never refused (C160_violated_sizes), unknown words are accepted (C160_violated_flag), MagSphereAnaFunA lacks the uniform field outside (C160_violated_total), MagSphereFreeSpace is wrong inside (C160_violated_free_inside), CongruousMagBC ignores volumes in the centre (C160_violated_cells, hence C160_centre_partial for cells of one size).*
* **C161 Analytic DC potentials solve the equation of the electric current and fit the survey's geometric factors** - The formulas with reciprocals of distances that are not numbers at the electrodes (Verif/DC/Analytic.lean); compared with the geometric factors of C113 and with the equation of the current; the expansion of the sphere for any family of polynomials, with the jump at the surface as remainder of the primary expansion. *Status: partial; violated by the code: buried electrodes in a half-space (C161_violated_buried), misspelt kinds of ground (C161_violated_name), the depth of the source of DCAnalyticSphere is ignored (C161_violated_depth, hence C161_sphere_primary_partial), total is not primary plus secondary on a half-space (C161_violated_half_space, hence C161_sphere_sum_partial), centre of the sphere (C161_violated_sphere_centre); that the expansion in Legendre polynomials converges is not proved, the jumps at the surface are shown to be exactly its remainder.*
* **C162 Analytic transient fields of dipoles satisfy Maxwell's equations** - The formulas component by component (Verif/TDEM/Dipoles.lean), erf as the integral. Specification: curl and divergence by partial derivatives (Verif/EM/Curl.lean); both fields are of the shapes f(r) m x u and A(r) (m.u) u + B(r) m, whose curls are computed once for fields with values in any normed space. *Status: partial; violated by the code: dhdt of the magnetic dipole has the wrong sign (C162_violated_dhdt), its electric field has the wrong sign and is divided by the distance once too often (C162_violated_e), the magnetic field of the electric dipole has the wrong sign (C162_violated_h), names of axes in lower case are refused by one function only (C162_violated_case); the _partial theorems prove all of the statement for the fields with these factors corrected.*
* **C163 Analytic harmonic fields of dipoles satisfy Maxwell's equations with displacement current** - The same with complex fields (Verif/FDEM/Dipoles.lean); the root of the wave number by C159; limits by the remainder of the exponential series. *Status: partial; violated by the code: the electric field of the magnetic dipole has the wrong sign and is divided by the distance once too often (C163_violated_e), the electric field of the electric dipole lacks the permittivity that its wave number has (C163_violated_permittivity); the _partial theorems prove Maxwell's equations with these factors corrected, or without permittivity; hzAnalyticDipoleF is not derived from the equations of the half-space, its limits are proved.*
* **C164 Galvanic and inductive parts of the field of a harmonic electric dipole** - The formulas of each orientation (Verif/FDEM/Dipolar.lean) and what broadcasting does with places and frequencies. Specification: curl, divergence and partial derivatives of Verif/EM/Curl.lean; by reduction to the shapes of C163. *Status: partial; violated by the code: H has a wrong sign of the wave number and is not the curl of A (C164_violated_h, hence C164_maxwell_partial for the curl of A), the default permeabilities of E and of its parts differ (C164_violated_defaults), several places with several frequencies are never refused (C164_violated_check, C164_violated_pairs), numbers as frequency, A along z and unknown orientations fail (C164_violated_arguments).*
* **C165 Fields of a magnetic dipole in a cased well** - The wave number with real roots (Verif/EM/Wave.lean), shown to be the principal root; the potential and its derivatives at a place (Verif/FDEM/Casing.lean), the cylindrical components as a Cartesian field, which is a multiple of that of C163; partial derivatives of Verif/EM/Curl.lean. *Status: partial; violated by the code: the electric field is multiplied with the array of all three permeabilities, so that it fails unless there are one or three places and is then wrong (C165_violated_e, hence C165_e_partial and C165_maxwell_partial with the permeability of the formation), the flux has the permeability of free space (C165_violated_b), the wave number is not a number at zero frequency (C165_violated_frequency).*
* **C166 Impedances of a layered Earth by propagation of waves** - The passes as recursion on lists of columns, normalisation included (Verif/NSEM/Earth.lean). Specification: plane wave fields in all layers with continuous components; existence by induction over the layers, uniqueness of the ratio by the exponential parts of C159, no division by zero by the flux of energy. *Status: partial; violated by the code: permeabilities other than a float raise UnboundLocalError (C166_violated_permeability), parameters of chargeable layers fail or remove the conductivity (C166_violated_colecole), thicknesses in excess are accepted and shift the layers (C166_violated_excess), integer frequencies are refused or cut the results to integers (C166_violated_integers); proved for all layered Earths otherwise.*
* **C167 Record arrays of natural source data** - Sources with receivers and blocks of data; the table field by field as in the code (Verif/NSEM/Records.lean). Specification: the multiset of readings; both round trips by rewriting sums over sources, receivers and locations. *Status: partial; violated by the code: tables of real parts with tippers cannot be read back (C167_violated_tipper), the complex form loses readings of which only one part was measured (C167_violated_parts), locations of the second field and of other receivers are not kept (C167_violated_locations), admittances become impedances (C167_violated_admittance), some surveys are refused (C167_violated_refused); the round trips are proved for all regular data otherwise.*
* **C168 Utilities for natural source data** - The utilities on the data of C167 (Verif/NSEM/DataUtils.lean); rotation reduces to the round trip of C167 and matrix algebra; apparent resistivity and skin depth against the half-space. *Status: partial; violated by the code: rotation fails for one frequency with several locations (C168_violated_single) and for incomplete tensors (C168_violated_missing) and leaves tippers as they are (C168_violated_tipper), lists are misaligned with admittances (C168_violated_info), resampling always fails (C168_violated_resample), one-dimensional data fail for all documented names (C168_violated_oned).*
* **C169 Import of EDI files** - Files as lists of lines of characters (Verif/NSEM/Edi.lean); search of blocks by induction over lines; the impedance against the fields in the units of the file and in SI units. *Status: partial; violated by the code: minutes and seconds are dropped at zero degrees (C169_violated_degrees), variances are scaled by the factor instead of its square (C169_violated_variance), lists without the exchanged component and tippers cannot be imported (C169_violated_components).*
* **C170 Counters and timers of method calls** - The counter as a state machine (Verif/Utils/Counter.lean); executions as trees of calls and as any sequence of events; by induction over both. *Status: partial; violated by the code: single times are wrong with recursion (C170_violated_recursion), a call that ends with an exception leaves minus the clock at its start (C170_violated_exception); number of calls proved for all executions, totals for all without exceptions.*
* **C171 Reading triangulated surfaces and downloading files** - The reader as a state machine over a file that gives empty lines at its end (Verif/IO/General.lean), so that not ending is a statement about all numbers of iterations; folders as functions from paths to contents. *Status: partial; violated by the code: reading never ends without the expected lines (C171_violated_hang), two blanks shift the coordinates (C171_violated_blanks), further parts and vertices with properties are dropped (C171_violated_parts), downloads overwrite in any case (C171_violated_overwrite, C171_violated_same).*
* **C172 Input files of gravity and magnetic inversions are read as written, and the models of the driver fit its active cells whatever is asked first** - Lines as lists of characters split at blanks and exclamation marks (Verif/IO/Drivers.lean); reading inverts a separate description of the format. The cached properties as mutually recursive functions on a state with a bound on the depth of calls; invariant: what is stored is right. *Status: partial; violated by the code: two blanks after a keyword (C172_violated_blanks), other keywords (C172_violated_keyword), active cells and starting model both given by values never end (C172_violated_loop), answers depend on the order of questions (C172_violated_order), the starting model is not reduced to the active cells but the reference model is (C172_violated_reduced), the driver for magnetics does not read the file of active cells (C172_violated_marks); proved for all files with one blank and all orders of questions after mesh and active cells.*
* **C173 Tables of electrodes become surveys whose readings keep their data, and meshes that contain all electrodes** - Tables as lists of rows over any ordered type of locations (Verif/DC/Locations.lean); sources by the sorted set of keys, sort_inds as in the code; permutation and order by induction over lists. Meshes by their ends, rounding by its distance from the number. *Status: partial; violated by the code: voltages from apparent conductivities do not depend on the data (C173_violated_voltage), files with poles and dipoles (C173_violated_mixed), tables of three dimensions cannot be written (C173_violated_write), data of an earlier table are kept (C173_violated_kept), the core ignores the range of heights in three dimensions (C173_violated_depth), electrodes with the same x give cells of size zero (C173_violated_spacing), electrodes above a point of the topography can be above the mesh (C173_violated_top), corezlength returns the rate of the padding (C173_violated_core); grouping and data are proved for all tables.*
* **C174 Surveys along a line have the requested arrays, spacings and separations, on the line and between its end points** - The loops over stations with floor and arange as integer parts (Verif/DC/Profile.lean). Stations and receivers by closed formulas for all lengths, points by the unit vector of the line. *Status: partial; violated by the code: the dimension "3d" (C174_violated_case), apparent conductivities (C174_violated_conductivity), lines from right to left in 2D (C174_violated_reversed, C174_violated_reversed_dipole), pole-dipole arrays reach beyond the line (C174_violated_end), gradient arrays fail or repeat readings (C174_violated_gradient, C174_violated_repeated), unknown arrays (C174_violated_unknown); sources, receivers and counts are proved for all other lines.*
* **C175 Line numbers of a survey change exactly where a new line begins** - The loop as a recursion with its reference points (Verif/DC/LineID.lean). Invariants over all sources; straight lines by the unit vector up to sign. *Status: partial; violated by the code: sources far beside the beginning of a line (C175_violated_far), poles as dipoles of no length (C175_violated_poles), pole sources (C175_violated_class); proved: numbers, straight lines, lines that go back and forth.*
* **C176 Serial and parallel loops of gravity and magnetics apply one and the same matrix** - Arrays as functions changed entry by entry by nested loops (Verif/PF/Numba.lean); parallel loops as any permutation of receivers and any split into threads with sums of their own. Induction over cells and receivers; entries are those of C88. *Status: proved; loops entry by entry over any numbers of receivers and cells, parallel loops for every order and distribution over threads, in exact arithmetic.*
* **C177 Magnetic fields by finite volumes: equations, sensitivities and what is kept between calls** - Real vectors over any cells and faces (Verif/PF/Differential.lean). The right side is the divergence of what drives the flux, so that the derivative of the solution follows from that of the residual (Verif/JacobianM.lean); the receivers by the chain rule, the adjoint by transposes. Histories: invariant that solver and fields kept belong to the model. *Status: partial; violated by the code: numbers near mu_0 give no field (C177_violated_number), data are ordered by components (C177_violated_order), models that are close keep the fields of the model before (C177_violated_close, hence C177_history_partial), a permeability set later keeps solver and fields (C177_violated_mu), storeJ fails from the second product on (C177_violated_store), the simulation of gravity always fails (C177_violated_gravity); equations, uniqueness, solvability, sensitivities and adjoints proved for all models.*
* **C178 Convolution with a waveform is the superposition of step responses** - The waveforms of C77 with a loop over the intervals between nodes, quadrature as the exact integral (Verif/TDEM/Convolve.lean). Adjacent intervals are joined; the rate vanishes outside the nodes, so the integral is over all past times. Closed formulas by the fundamental theorem on each interval. *Status: partial; violated by the code: a ramp with positive epsilon loses the part of the ramp within epsilon of its start (C178_violated_ramp, hence C178_ramp_partial and C178_ramp_bounds_partial for epsilon zero); superposition, causality, linearity, static and piecewise linear currents proved; quadrature is taken as exact.*
* **C179 Pseudo-locations of DC readings are finite, below the ground and depend on the reading only** - Locations with n horizontal coordinates, rows of the survey as a list (Verif/DC/Pseudo.lean). Each row from its own electrodes, geometry by algebra with square roots. *Status: partial; violated by the code: a pole source centred in its receivers has infinite depth (C179_violated_pole), tolerance zero gives NaN (C179_violated_zero), exchanged Wenner arrays differ (C179_violated_reciprocity, hence C179_reciprocity_partial), on slopes the location is moved downhill and above the ground beyond 38 degrees (C179_violated_slope, C179_violated_above).*
* **C180 Random models respect their bounds; elliptic models have the given size and direction** - Convolution with reflection in any number of dimensions, its range by weighted means; scaling to the bounds by the smallest and largest value; the ellipse by the sign of the arctangent (`Verif/Utils/RandomModel.lean`). *Status: partial; Proved for random and elliptic models; a model of one cell is not a number, in one dimension the angle changes the size of the ellipse, and the checks of points of polygons never fail..*
* **C181 The nodes of active cells of potential field simulations are those of the mesh** - `np.unique` as the sorted list of the used nodes with the place of each node; the corners by list lemmas (`Verif/PF/ActiveNodes.lean`). *Status: proved; All meshes and masks..*
* **C182 One-dimensional electric fields solve the finite volume equations with the values of the layered Earth at the ends** - Matrices over the complex numbers; the inner block is invertible since its real part is the energy of the gradient; ends from C159 with proportionality of all fields of sources above (`Verif/NSEM/Efields1D.lean`). *Status: proved; Equations, uniqueness, ends and amplitude, with exact arithmetic; the accuracy of the discretization is not claimed..*
* **C183 Hooks run once and before the method; what was remembered is recalled in order; keyword arguments and deprecated names** - Hooks as state transformers with any journal, induction over the names; the memory by induction over iterations (`Verif/Utils/Hooks.lean`). *Status: partial; Proved for hooks, memory, keyword arguments and deprecations. Violated: hooks match anywhere in a name, hooks of the projection cannot project, names asked twice are remembered twice, the model remembered at the end of an iteration is the one before it, refused keyword arguments leave changes..*
* **C184 Models with a map give the product of their current values; receivers are found in a source** - Histories of writes and reads (`Verif/Utils/ModelCache.lean`). *Status: partial; Proved for new models, arrays made from models and histories without writes after the first read; violated: stale products after writes, parts of models keep the map, the indices of receivers are never returned..*
* **C185 The linear operator of potential fields with dask is the one of the simulation at hand** - Search for chunk sizes as a loop with a bound on its rounds, ended by the measure (rows - chunks) + (columns - chunks); arrays as rows with sizes of chunks, the file as an optional array (`Verif/PF/DaskOperator.lean`). *Status: partial; Chunk sizes, rows, data and the file of the same simulation are proved. Violated by the code: an existing file is returned whatever it holds, also with another shape (C185_violated_stale, C185_violated_shape), and other numbers of chunks are a ValueError (C185_violated_chunks)..*
* **C186 Sensitivities and diagonals with dask are those of the model and weights asked for** - Histories of calls with the remembered diagonal and model, by an invariant; blocks by induction over their number (`Verif/DC/DaskDiag.lean`). *Status: partial; First calls, calls with the same weights, sums and order of blocks are proved. Violated by the code: other weights give the diagonal of the first ones (C186_violated_weights, C186_violated_value), gravity without weights raises AttributeError (C186_violated_gravity), getJ of another model gives the old sensitivities (C186_violated_getJ), declared sizes of blocks (C186_violated_blocks)..*
* **C187 The surface of the active cells, draped locations and surveys of parallel lines** - Columns as lists of active layers, the first largest centre by induction over the list (`Verif/DC/Topography.lean`); sorting by any list of places, from C173. *Status: partial; Surface, nearest places, draping on tensor meshes and line numbers are proved. Violated by the code: columns without active cells are an error (C187_violated_empty), tree meshes move the points (C187_violated_tree), the elevation of the lines is ignored (C187_violated_z0), gradient arrays fail (C187_violated_gradient)..*
* **C188 The maps of spectral induced polarization give the three properties of all cells** - Composition of the models of C19 and C20 with the exponential (`Verif/DC/SipMappings.lean`). *Status: partial; Maps proved for all masks. Violated by the code: active cells by indices (C188_violated_indices); run_inversion always raises TypeError (C188_violated_run)..*
* **C189 Fitting a mixture with priors gives the best of its initializations** - The loops of the fit over any estimation steps; the inner loop by induction against the sequence of iterates and bounds, the choice of the best by induction over the runs (`Verif/Utils/GMMFit.lean`). The steps are in C133. *Status: partial; Proved for all steps of estimation. Violated by the code: converged_ and the warning are about any initialization, not the one that is returned (C189_violated_converged); fit_predict returns the mixture (C189_violated_predict); with scikit-learn before 1.6 it fails (C189_violated_version)..*
* **C190 Projected gradients alternate between steepest descent and conjugate gradients** - The attributes of the phases as a state machine driven by any sequence of iterates, values and gradients; the largest decrease since the last conjugate gradients by induction, and the length of a phase by adding up decreases (`Verif/Optim/Phases.lean`). The inner solver is any function with the Galerkin property. *Status: partial; Phases, directions and their end are proved for all sequences of iterates. Violated by the code: whether components are held at bounds is decided with the gradient of the point before (C190_violated_binding)..*
* **C191 Old names do what the new ones do, with a warning, or are errors** - Classes as dictionaries along a chain of bases with explicit lookup of `__init__` and `_old__init__`; calls with a bound on their nesting (`Verif/Utils/Deprecate.lean`). *Status: partial; Proved for classes with one old name and for all properties and functions. Violated by the code: an old class that derives from an old class recurses for ever (C191_violated_nested); future_warn hides error (C191_violated_error); wrong class in the messages of properties (C191_violated_names)..*
* **C192 Estimated units of a mixture are volume-weighted averages and proper covariances** - Sums over cells in real arithmetic; covariances by Cauchy and Schwarz, refinement by summing over the cells of each cell (`Verif/Utils/GMMEstimate.lean`). Square roots of covariances and the E step are scikit-learn and C131, C133. *Status: partial; Proved for the class without relationships, and with relationships for covariances of the units. Violated by the code with relationships: tied covariances mix rows of different mappings, are not symmetric and can be negative (C192_violated_tied) or raise IndexError (C192_violated_units), proportions depend on the mesh and overwrite those of the cells (C192_violated_weights)..*
* **C193 Soils: factories, table and arrays of heads** - Keyword dictionaries and the table of the file as rationals; ranges from C62, monotonicity of the Van Genuchten curves by monotonicity of each power; arrays entry by entry with the number type of the heads (`Verif/Flow/Soils.lean`). *Status: partial; Factories, table and float heads are proved. Violated by the code: for heads given as integers the saturated conductivity is truncated, to zero for every soil of the table (C193_violated_integers)..*
* **C194 Functions of a type in a combination are found, wherever they are** - Trees of functions and results that may hold lists; mutual induction over trees and lists of terms (`Verif/Objective/Find.lean`). *Status: partial; All functions are found, and combinations of single functions give the right list. Violated by the code: functions in inner combinations come as nested lists, which the directives accept and then fail on (C194_violated_nested, C194_violated_sum); combinations without terms are dropped (C194_violated_empty)..*
* **C195 Simulations solve with the solver and options they were given** - State machine of the default, the simulations and what each factorisation is called with; histories as lists of operations, specification by the last accepted assignment. *Status: partial; violated by the code: magnetic simulations drop the options they are given, initial fields, boundary simulations, Newton steps and gravity pass no options, Newton and boundary keep the first solver, None is accepted, the symmetric option of BFGS is announced but not set and misfits in combinations are not seen (C195_violated_*); the rest is proved for all histories. Warm factorisations kept by a simulation (_Adcinv, Ainv) are not modelled here.*
* **C196 Starting values of Gaussian mixtures and their densities** - Verif/Utils/GMMStart.lean models the checks of proportions, the start of mixtures with relationships, their log-probabilities and the computations of precisions and covariances, for the four types of covariance. The specification is the normal density with a precision matrix. The Cholesky factorization is a parameter: lower triangular, positive on the diagonal, product with its transpose the matrix; determinants and inverses of triangular matrices are from Mathlib. Not modelled: the estimates of the responsibilities, arrays of other shapes, rounding. *Status: partial; Acceptance of proportions, starts without precisions or with full or tied precisions, and the computations of precisions and covariances are proved for all inputs. Diagonal and spherical precisions given by a user are used without a square root (C196_violated_diag, C196_violated_spherical), and no covariances are set when precisions are given (C196_violated_covariances). Cholesky factorization is a parameter with its contract..*
* **C197 DC fields obey Ohm's law and conservation, and every measured field has sensitivities** - Verif/DC/Currents.lean models the fields of both formulations, and their derivatives with the shapes of the arrays, so that products and sums of arrays that do not fit raise ValueError. Fields are linear algebra over the reals; derivatives are stated with HasDerivAt along a direction. Not modelled: several sources in one array, tensors that are not diagonal, the 2.5D fields. *Status: partial; Ohm's law, conservation, charges, and the derivatives of potentials (cells and nodes) and electric fields of cells are proved for all operators. Current densities have no sensitivities (C197_violated_current), nor have nodal electric fields and currents (C197_violated_nodal). Diagonal inner products; one source and one vector at a time..*
* **C198 Wenner source lists contain every Wenner array once** - Verif/DC/Wenner.lean models the two loops of WennerSrcList with their early exit. Membership, absence of repetitions and the number of arrays are proved by induction on the loops. Not modelled: plots, rounding of np.arange (an extra location at the end is never used), a spacing of zero. *Status: partial; Proved for all float spacings in exact arithmetic; an integer spacing raises TypeError (C198_violated_integer)..*
* **C199 Data near planes are selected by their distance** - Verif/DC/Planes.lean models the constants of a plane, the test of locations and the loop over planes. The specification of distance is the existence of a point of the plane closer than the distance given; the proof uses the Cauchy inequality and the foot of the perpendicular. NaN is none. Not modelled: the drawing, rounding. *Status: partial; Selection by true distance, several planes and their distances, and options that have a default are proved for all inputs. Points on a line keep nothing (C199_violated_collinear) and options without a default are dropped (C199_violated_options)..*
* **C200 Plots of two-dimensional data use the limits, levels and options given** - Verif/Utils/Plot2D.lean models the limits as a function of the dictionary of options, which returns the dictionary left to the caller; levels, limits of the data and shades are functions of real numbers; calls with keywords fail when a name comes twice. Proofs by cases on the options, by induction on the data and with sines and cosines. Not modelled: interpolation, masks, drawing; arctan2 is any function. *Status: partial; Limits, levels, limits from data and bounds of shades are proved for all inputs. The limits are taken out of the dictionary of the caller (C200_violated_options), vectors with levels raise TypeError (C200_violated_vector), and a name of a figure together with axes raises an exception (C200_violated_figname)..*
* **C201 Curves of layered models show each value over its layer** - Verif/Utils/LayerPlot.lean models the vertices drawn and the limits of the values. The place of each vertex is proved by induction on the layers. Not modelled: lines between layers, limits of the vertical axis, drawing. *Status: partial; The curve is proved for all layered models with at least one thickness. A halfspace raises IndexError (C201_violated_halfspace), negative values leave the axis (C201_violated_negative), and the older function never works with limits (C201_violated_xlim)..*
* **C202 Tables printed during an inversion are aligned** - Verif/Utils/Tables.lean models the lines printed as lists of characters, with centring as in Python. The place of each column is proved by induction on the printers; the specification cuts columns out of the line. Not modelled: formats of numbers, which are functions of the object; the sides of stopping rules are integers. *Status: partial; Proved for titles and values that fit their columns; a value that is too long moves the columns to its right (C202_violated_long)..*
* **C203 Pseudosections show the data asked for, on the scale asked for** - Verif/DC/Pseudosection.lean models the choice of data, of the scale and of the branch, with keywords given twice as TypeError, and the limits of the axis and ticks. Proofs by cases on options and by induction on the values. Not modelled: pseudo-locations (see C179), levels of contours on a logarithmic scale, the polygon over the topography, drawing. *Status: partial; Data, scales, axis and ticks are proved for scatter plots and contours, and for pcolor with options that have no scale. pcolor raises TypeError without options (C203_violated_pcolor) and with a scale (C203_violated_pcolor_norm), capital letters pass the check and raise later (C203_violated_case), and the format of the colour bar cannot be given (C203_violated_bar)..*
* **C204 Curves of magnetotelluric stations show all readings with their error bars** - Verif/NSEM/StationPlot.lean models the search for readings, the three components and their error bars. The specification lists the readings of all receivers; error bars are compared with derivatives (HasDerivAt) of the values. Not modelled: drawing, broadcasting of arrays with one entry, receivers without electric locations. *Status: partial; Readings, values and error bars of apparent resistivities and amplitudes are proved for surveys with one receiver of each kind for each frequency. A frequency without the receiver removes the curve (C204_violated_missing), stations in a second receiver are not found (C204_violated_second), error bars of phases are wrong (C204_violated_phase), and maps always raise (C204_violated_map)..*
* **C205 The arrays of a waveform stay consistent under assignment** - Verif/VRM/Assignments.lean models constructors and setters as functions on the pair of attributes; histories are lists of assignments, refused ones included. The sorted waveform of C77 is reused for piecewise linear waveforms. *Status: partial; Arbitrary discrete waveforms keep arrays of one length after every history (C205_same_length), but their number of points can never change (C205_violated_resize). Piecewise linear waveforms are consistent when built (C205_piecewise_built); later assignments are not checked (C205_violated_piecewise, C205_violated_initial)..*
* **C206 Sensitivities of the choclo engine are never sent to a directory** - Verif/VRM/Assignments.lean models constructor, setters and the check; the file system is an arbitrary predicate on paths, which does not change. Not modelled: values that are no engine, store or path. *Status: partial; Construction is decided exactly (C206_built_iff). Later assignments are safe only if they never set choclo, or never set disk (C206_histories_partial); all others get past the check (C206_violated_assignments)..*
* **C207 Blockiness weights with the total gradient** - Verif/Reg/TotalGradient.lean models update_weights with the averages of C85 and the weights of C41; the siblings are a list of directions, each with its own faces. The specification writes the mean over the kept faces of a cell as a sum. On tree meshes the averages are those of C85 for tree meshes, for any matrix of face averages. Not modelled: the kernels themselves (any arrays on the faces). *Status: partial; Proved on tensor meshes: value, sign, homogeneity, uniform gradients away from boundaries, and components. Gradients that change sign across a cell cancel (C207_violated_cancel), and next to a boundary a uniform gradient counts three quarters (C207_violated_boundary). On tree meshes uniform gradients count in full (C207_tree_uniform); cancellation is the same (C207_violated_tree_cancel)..*

## Modules

Which part of the code each module models, as stated at its head.

* `Verif/Analysis.lean`: Vocabulary shared by the calculus theorems: gradients and Jacobians of functions of real vectors, as plain arrays and matrices (which is what the Python code returns).
* `Verif/Basic.lean`: Shared vocabulary of the models: Python exceptions as values, insertion ordered dictionaries, and numpy basic slicing of one-dimensional arrays.
* `Verif/DC/Abmn.lean`: C155: making a resistivity survey from lists of electrodes (`generate_survey_from_abmn_locations`, `simpeg/electromagnetics/static/utils/static_utils.py` 951-1085). Numbers are real.
* `Verif/DC/Analytic.lean`: C161: analytic potentials of current electrodes, in homogeneous ground and with a sphere (`simpeg/electromagnetics/analytics/DC.py`). Arrays of receivers are treated one row at a time; `none` stands for a value that is infinite or not a number. Conductivities are real and not zero.
* `Verif/DC/Cache.lean`: What a static resistivity simulation remembers between calls (`simpeg/electromagnetics/static/resistivity/simulation.py` 100-203 and 265-294, `simpeg/base/pde_simulation.py` 627-643, `simpeg/props.py` 408-472): the mass matrices, the factors `Ainv`, the source terms `_q`, the stored sensitivities `_Jmatrix` and the diagonal `_gtgdiag`. The mathematics is left open (`World`): only which quantity is computed from which other ones, and what is kept, is modelled. The simulation is not miniaturised.
* `Verif/DC/Currents.lean`: Model of the fields of the static resistivity simulations and of their derivatives: `simpeg/electromagnetics/static/resistivity/fields.py` 19-72 and 75-262, the derivatives of inner products they call (`simpeg/base/pde_simulation.py` 15-48 and 357-371), and their use in `simulation.py` 156-187 and 189-255, for C197.
* `Verif/DC/DaskDiag.lean`: C186: sensitivities and diagonals of `J.T W.T W J` with dask (`simpeg/dask/potential_fields/gravity/simulation.py` 6-22, `simpeg/dask/potential_fields/magnetics/simulation.py` 6-33, `simpeg/dask/electromagnetics/static/resistivity/simulation.py` 13-128, `simpeg/dask/electromagnetics/static/induced_polarization/simulation.py` 8-24). The matrices, the derivatives of the maps and the sensitivities are parameters; what is kept between calls is modelled.
* `Verif/DC/Electrodes.lean`: Electrode locations of resistivity surveys, draping on topography, and the source terms (`simpeg/electromagnetics/static/resistivity/survey.py` 76-166, 196-365, `sources.py`).
* `Verif/DC/Geometry.lean`: Geometric factors and apparent resistivities of resistivity surveys (`simpeg/electromagnetics/static/utils/static_utils.py` 79-179, 260-339, `simpeg/electromagnetics/static/resistivity/survey.py` 168-194, `receivers.py` 156-192). Numbers are real; a result which is infinite or not a number in the code is `none` here.
* `Verif/DC/IP.lean`: The induced polarization simulations (`simpeg/electromagnetics/static/induced_polarization/simulation.py`): the conductivity is fixed, the model is the chargeability, and data are the linear response of the resistivity simulation, divided by the primary voltage for receivers of the apparent chargeability. The four classes inherit `Jvec`, `Jtvec`, `getJ` from the resistivity simulations (`Verif/DC/Sim.lean`, `Verif/DC/Sim2D.lean`) and only replace the derivatives of the conductivity and the resistivity. What is remembered between calls is in `Verif/DC/IPCache.lean`. Not modelled: miniaturised surveys (`_scale` would look up the sources of the full survey in the fields of the miniaturised one), factors and fields handed to the constructor (71-72).
* `Verif/DC/IPCache.lean`: What an induced polarization simulation remembers between calls (`simpeg/electromagnetics/static/induced_polarization/simulation.py`, `simpeg/electromagnetics/static/resistivity/simulation.py` 100-263 and 557-571, `simpeg/base/pde_simulation.py` 243-390 and 638-643): primary fields and factors, the scale, the derivatives of mass matrices and boundary terms, the stored sensitivities, the diagonal and the last prediction. `_delete_on_model_update` (136-139) is empty. The mathematics is left open (`World`); the 3D simulations with the full survey are modelled. The attribute `model` is not part of the state: every function below assigns it before it is read.
* `Verif/DC/Layered.lean`: C147: resistivity data over a layered Earth, `Simulation1DLayers` (`simpeg/electromagnetics/static/resistivity/simulation_1d.py`). Arrays are functions of `ℕ`; entries outside of the arrays are never read. `n` is the number of layers above the half-space, `n_layer - 1`.
* `Verif/DC/LineID.lean`: # Numbers of survey lines Model of `xy_2_lineID` and `r_unit` of `/repo/simpeg/electromagnetics/static/utils/static_utils.py` (1416-1524). Coordinates are real numbers. Points are the first two coordinates.
* `Verif/DC/Lines.lean`: `convert_survey_3d_to_2d_lines` (`simpeg/electromagnetics/static/utils/static_utils.py` 342-495): surveys in three dimensions cut into lines, with positions along the line.
* `Verif/DC/Locations.lean`: # Surveys and meshes from tables of electrodes Model of the class `IO` of `/repo/simpeg/electromagnetics/static/resistivity/IODC.py`: grouping of readings by source, the quantities computed from the data, and the extents of the meshes. Not modelled: plots, the pseudo-locations, refinement of quadtrees, and the search of cells below the topography.
* `Verif/DC/Mini.lean`: The miniaturised survey of the static resistivity simulations (`simpeg/electromagnetics/static/resistivity/utils.py` 75-128 and `simulation.py` 296-318): the data of a survey are computed from the smallest set of pole-pole potentials. `E` is the type of electrode locations (rows of coordinates), with any decidable order on them. The potential of the mesh solution enters as an arbitrary function `resp a m`: the potential measured at `m` for a unit current injected at `a`.
* `Verif/DC/Planes.lean`: Model of the selection of data near planes: `define_plane_from_points` (`simpeg/utils/mat_utils.py` 456-485) and `plot_3d_pseudosection` (`simpeg/electromagnetics/static/utils/static_utils.py` 760-930, without the drawing), for C199.
* `Verif/DC/Profile.lean`: # Surveys generated along a line Model of `generate_dcip_sources_line` and `generate_dcip_survey` of `/repo/simpeg/electromagnetics/static/utils/static_utils.py` (1088-1262 and 1265-1413). Distances are real numbers. Simplified: the interpolated topography is a function given for all points, so that stations off the given topography (NaN or ValueError) are not modelled, and neither are lines of length zero.
* `Verif/DC/Pseudo.lean`: C179: `pseudo_locations` (`simpeg/electromagnetics/static/utils/static_utils.py` 182-257) with the separations "AB" of `electrode_separations` (81-179). Simplified: the numbers are real; `none` stands for a result which is not a finite number. A location has `n` horizontal coordinates (one for 2D, two for 3D surveys) and an elevation.
* `Verif/DC/Pseudosection.lean`: Model of `plot_pseudosection` (`simpeg/electromagnetics/static/utils/static_utils.py` 498-755), for C203: which data are drawn, on which scale, and which calls raise. Text is a list of characters.
* `Verif/DC/SIP.lean`: Spectral induced polarization (`simpeg/electromagnetics/static/spectral_induced_polarization/`): pseudo-chargeability of the stretched exponential decay after pulses, predictions and products for every time, the order of data, and what the simulation keeps. The sensitivity of resistivity data to the chargeability of the cells (C111) is a given matrix, one row for every location of a receiver.
* `Verif/DC/SIPState.lean`: What a spectral induced polarization simulation remembers (`simpeg/electromagnetics/static/spectral_induced_polarization/simulation.py`): properties, derivatives, predictions and sensitivities kept between calls (C120), and the voltages by which apparent chargeability is normalised, kept by receivers (C121).
* `Verif/DC/SelfPotential.lean`: Self potential (`simpeg/electromagnetics/static/self_potential/simulation.py`): maps from current density and hydraulic head to charge, predictions and sensitivities (C122), and what is kept between calls (C123).
* `Verif/DC/Settings2D.lean`: The settings of the 2.5D resistivity simulations and their quadrature (`simpeg/electromagnetics/static/resistivity/simulation_2d.py` 38-131, 223-242, 565-626, 732-802).
* `Verif/DC/Sim.lean`: The static (direct current) resistivity simulations (`simpeg/electromagnetics/static/resistivity/simulation.py`): system matrix, predicted data, sensitivity products and the stored sensitivity matrix, in the nodal and the cell centred formulation. Simplified: the solver is exact; mesh operators are arbitrary matrices (the contracts needed from `discretize` are hypotheses of the theorems); the fields handed to `Jvec`/`Jtvec` are those of the model handed to them (what happens otherwise is in `Verif/DC/Cache.lean`); receivers measure the potential or, in the cell centred formulation, the electric field; the miniaturised survey is in `Verif/DC/Mini.lean`.
* `Verif/DC/Sim2D.lean`: The 2.5D resistivity simulations (`simpeg/electromagnetics/static/resistivity/simulation_2d.py`, `fields_2d.py`): the potential is computed for a number of wavenumbers, data and sensitivities are weighted sums over them. Simplified as in `Verif/DC/Sim.lean`: the solver is exact, mesh operators are arbitrary matrices, the survey is not miniaturised (`Verif/DC/Mini.lean`; `_mini_survey_data` 457-479 is the same code). Receivers measure the potential: for other fields `dpred` (272) multiplies an array without a wavenumber axis with the weights.
* `Verif/DC/SipMappings.lean`: C188: the maps of spectral induced polarization (`simpeg/electromagnetics/static/spectral_induced_polarization/run.py`: `spectral_ip_mappings` 13-90 and the beginning of `run_inversion` 93-126), made of the models of `InjectActiveCells` (C20) and `Wires` (C19).
* `Verif/DC/Topography.lean`: C187: the surface of the active cells, locations draped on it, and surveys of parallel lines (`simpeg/electromagnetics/static/utils/static_utils.py` 1526-1904: `gettopoCC`, `drapeTopotoLoc`, `closestPointsGrid`, `gen_3d_survey_from_2d_lines`). A tensor mesh has `ncol` columns and `nz` layers; the widths of the layers are given from below. The faces of the active cells of a tree mesh without an active cell above them (`get_boundary_cells`) and the nearest columns are parameters.
* `Verif/DC/Wenner.lean`: Model of the Wenner arrays of `simpeg/electromagnetics/static/resistivity/utils.py` 13-72, for C198.
* `Verif/Data/Lemmas.lean`: Helper lemmas for slices and uncertainties.
* `Verif/Data/Model.lean`: Model of `simpeg/data.py`, class `Data`: access by (source, receiver) and the uncertainty attributes. Observed data are real (complex data enter the uncertainties only through their modulus).
* `Verif/Data/Props.lean`: Property theorems C02 (access by source and receiver) and C07 (uncertainties).
* `Verif/Directives/Beta.lean`: Model of `BetaSchedule`, `TargetMisfit` (`simpeg/directives/_directives.py` 605-671, 1092-1185) and of the part of the inversion they act on.
* `Verif/Directives/Estimate.lean`: Model of the directives that estimate trade-off parameters and multipliers: `BetaEstimateMaxDerivative`, `BetaEstimate_ByEig`, `AlphasSmoothEstimate_ByEig`, `ScalingMultipleDataMisfits_ByEig` (`simpeg/directives/_directives.py` 434-604, 674-948) and `PairedBetaEstimate_ByEig` (`_sim_directives.py` 189-276).
* `Verif/Directives/Irls.lean`: Model of `UpdateIRLS` (`simpeg/directives/_regularization.py` 42-425).
* `Verif/Directives/Joint.lean`: Model of the directives for joint inversion: `MultiTargetMisfits` (`simpeg/directives/_directives.py` 1188-1646) and `JointScalingSchedule` (950-1090).
* `Verif/Directives/Order.lean`: Model of the validation of directive lists: `DirectiveList.validate` (`simpeg/directives/_directives.py` 336-338), the `validate` methods of the directives, and the setter of `BaseInversion.directiveList` (`simpeg/inversion.py` 92-99).
* `Verif/Directives/PGI.lean`: C134: the directives for petrophysically guided inversion (`simpeg/directives/_pgi_directives.py`): `PGI_BetaAlphaSchedule` and `PGI_AddMrefInSmooth`. `PGI_UpdateParameters` is in `Verif.Reg.PGIState` and `Verif.Utils.GMM`.
* `Verif/Directives/Power.lean`: Model of `eigenvalue_by_power_iteration` (`simpeg/utils/mat_utils.py` 127-237).
* `Verif/Directives/Precond.lean`: Model of `UpdatePreconditioner` (`simpeg/directives/_directives.py` 2180-2261) and of the Hessian the optimiser works with (`inverse_problem.py`, `objective_function.py` 487-502, `data_misfit.py` 308-343).
* `Verif/Directives/Run.lean`: Model of `BaseInversion.run` (`simpeg/inversion.py` 101-121), `DirectiveList.call` (`simpeg/directives/_directives.py` 323-334) and the outer loop of `Minimize.minimize` (`simpeg/optimization.py` 462-559, 814-838) as far as directives can see it.
* `Verif/Directives/Save.lean`: Model of the directives that save the progress of an inversion (`simpeg/directives/_directives.py` 1648-2178).
* `Verif/Directives/Sim.lean`: Model of the directives of joint inversions with a similarity measure (`simpeg/directives/_sim_directives.py`), except `PairedBetaEstimate_ByEig`, which is in `Estimate.lean`.
* `Verif/Directives/Weights.lean`: Model of `UpdateSensitivityWeights` (`simpeg/directives/_directives.py` 2324-2640).
* `Verif/EM/Curl.lean`: Partial derivatives, curl and divergence of fields in space with values in a real normed space, and those of the two kinds of fields that dipoles have. Used for C162 and C163.
* `Verif/EM/Discretization.lean`: C146: recommended layers (`simpeg/electromagnetics/utils/em1d_utils.py` 8-141) and the transform to the time domain of the layered simulation (`get_splined_dlf_points`, `em1d_utils.py` 224-257, and `simpeg/electromagnetics/time_domain/simulation_1d.py` 104-212). Numbers are exact reals; the rounding of the ratio of the filter to 15 digits is left out.
* `Verif/EM/Hankel.lean`: C143: the coefficients of the Hankel transforms of the layered electromagnetic simulations (`simpeg/electromagnetics/base_1d.py` 399-606): for each source, receiver and location the factors of `J0` and `J1`.
* `Verif/EM/Layered1D.lean`: C144: data and sensitivities of the layered electromagnetic simulations (`simpeg/electromagnetics/base_1d.py`, `frequency_domain/simulation_1d.py`, `time_domain/simulation_1d.py`). The reflection coefficients and their derivatives come from another package (`geoana`); they are parameters here.
* `Verif/EM/LineCurrent.lean`: Line currents on the edges of a tensor mesh (`simpeg/electromagnetics/utils/current_utils.py` 7-264). Numbers are real. `eps` is the machine precision, a parameter. A wire is a list of vertices.
* `Verif/EM/LineFaces.lean`: Line currents through the faces of a tensor mesh: `line_through_faces` (`simpeg/electromagnetics/utils/current_utils.py` 368-513). The three branches for the three axes are written once, with the axis as a variable. The vertices are given by the cells whose centres are nearest to them (`discretize.utils.closest_points_index`, a library function; the code replaces the vertices by these centres, lines 408-410). The nearest face of an axis to a cell centre is one of the two faces of the cell, so that its other coordinates are those of the centre.
* `Verif/EM/LineTree.lean`: Line currents on the edges of a tree mesh: `_poly_line_source_tree` (`simpeg/electromagnetics/utils/current_utils.py` 267-365). The mesh is a library object. What is used of it: the cells crossed by a segment, in order (`get_cells_along_line`), the corner, the widths and the twelve edges of a cell, and the matrix `_deflate_edges` which expresses all edges by those that are not hanging.
* `Verif/EM/Mass.lean`: A mass matrix of an electromagnetic simulation together with its model derivatives: the members `MeSigma`, `MeSigmaI`, `MeSigmaDeriv`, `MeSigmaIDeriv` and so on, which `with_property_mass_matrices` (`simpeg/base/pde_simulation.py` 86-410) adds for a physical property.
* `Verif/EM/Relaxation.lean`: C145: the relaxation models of the layered electromagnetic simulations: complex conductivities and permeabilities (`simpeg/electromagnetics/base_1d.py` 236-371) and the functions `ColeCole` and `LogUniform` (`simpeg/electromagnetics/utils/em1d_utils.py` 148-221).
* `Verif/EM/SourceCache.lean`: What the electromagnetic sources remember between evaluations (`simpeg/electromagnetics/time_domain/sources.py` 1227-1832 and `simpeg/electromagnetics/frequency_domain/sources.py` 361-586, 700-717, 880-902, 1227-1355). The same source object can be given to several simulations and its attributes can be assigned. The discretisation on the mesh and the analytic potentials of `geoana` are left open: only which quantity is computed from which other ones, and what is kept, is modelled.
* `Verif/EM/Wave.lean`: The wave number `k` of `simpeg/electromagnetics/utils/waveform_utils.py`, used by C165 and C166.
* `Verif/FDEM/Cases.lean`: Cases for the theorems on Maxwell's equations (`Verif/FDEM/Maxwell.lean`): simulations meeting the hypotheses, and the receivers for which the two EB formulations disagree.
* `Verif/FDEM/Casing.lean`: C165: the wave number of `simpeg/electromagnetics/utils/waveform_utils.py` and the fields of a vertical magnetic dipole in a cased borehole (`simpeg/electromagnetics/analytics/FDEMcasing.py`).
* `Verif/FDEM/Columns.lean`: Fields of several sources at once: `f[:, 'b']` and `f[source_list, 'b']`, the functions of `simpeg/electromagnetics/frequency_domain/fields.py` which turn the array of solutions, one column per source, into the array of another field. The receivers access the fields one source at a time (`receivers.py`, `f[src, ...]`), which is what `Verif/FDEM/Sim.lean` models. An array is the list of its columns.
* `Verif/FDEM/Dipolar.lean`: C164: fields and potentials of a harmonic electric dipole and their galvanic and inductive parts (`simpeg/electromagnetics/analytics/FDEMDipolarfields.py`).
* `Verif/FDEM/Dipoles.lean`: C163: the analytic fields of harmonic dipoles (`simpeg/electromagnetics/analytics/FDEM.py`).
* `Verif/FDEM/EB.lean`: The electric field and magnetic flux density formulations of the frequency domain simulation (`simpeg/electromagnetics/frequency_domain/simulation.py` 514-1340) and their fields objects (`fields.py` 323-1055). Simplified: no permittivity (the code warns that its derivatives are not implemented); mesh operators are arbitrary matrices; a source is given by its source terms and primary fields as functions of the model (`Verif/FDEM/Sources.lean` has those of the code), `bPrimaryDeriv`, `hPrimaryDeriv` and `jPrimaryDeriv` are zero as in every source of the code; frequencies are rational.
* `Verif/FDEM/HJ.lean`: The current density and magnetic field formulations of the frequency domain simulation (`simpeg/electromagnetics/frequency_domain/simulation.py` 1348-2187) and their fields objects (`fields.py` 1058-1819). Simplified: as for the EB formulations; moreover `s_eDeriv`, `ePrimaryDeriv` are zero, as they are for every source of the code in these formulations (in `getRHSDeriv` of the magnetic field formulation the adjoint of another `s_eDeriv` would be applied to a vector of the wrong size, line 2187).
* `Verif/FDEM/Maxwell.lean`: The equations which the frequency domain simulations solve, and the agreement of the formulations: the electric field and the magnetic flux density formulation predict the same data, and so do the current density and the magnetic field formulation (`simpeg/electromagnetics/frequency_domain/simulation.py` 514-2187, `fields.py` 323-1819).
* `Verif/FDEM/Sim.lean`: The frequency domain simulations (`simpeg/electromagnetics/frequency_domain/simulation.py` 21-506 and `receivers.py` 170-258), independently of the formulation: predicted data, `Jvec`, `Jtvec` and `getJ`. Simplified: the solver is exact (`Ainv * b` is the solution of the system, for a symmetric or unsymmetric matrix alike); the fields handed to the products are those of the model handed to them; only the frequency of a source decides with which others it is solved; a field derivative which is `Zero()` is a zero vector; sources have one field each.
* `Verif/FDEM/Sources.lean`: The sources of the frequency domain simulations (`simpeg/electromagnetics/frequency_domain/sources.py`), what follows for them from the theorems about the formulations, and the combinations of source, formulation and receiver whose sensitivities are wrong. The numerical values of the primary fields (`geoana`) are arbitrary vectors here.
* `Verif/FDEM/Survey.lean`: The frequency domain survey (`simpeg/electromagnetics/frequency_domain/survey.py`): grouping of the sources by frequency, and the loops over frequencies and the sources of a frequency with which the simulation fills the data vector (`simulation.py` 246-256) and accumulates the adjoint product (`simulation.py` 301-323). Simplified: sources are identifiers, their frequencies are rational numbers given by a function; the data of one source form one block (the slices inside a source are in `Verif/Survey`).
* `Verif/Fields/Lemmas.lean`: Helper lemmas for source indices and field storage.
* `Verif/Fields/Model.lean`: Model of `simpeg/fields.py`, class `Fields`: a dictionary from field name to a matrix with one block of columns per source. A stored matrix is a list of columns, each column a list of `nP` values. Field names are natural numbers. Simplifications: the storage location (`CC`, `N`, `F`, `E`) enters only through the number of rows `nP name`; data types are not modelled; a value is given as a list of columns (a 1-D array or a scalar is the one-column case); broadcasting along rows is not modelled.
* `Verif/Fields/Props.lean`: Property theorems for C05 (field storage and source indices).
* `Verif/Fields/Time.lean`: Model of `simpeg/fields.py`, class `TimeFields` (354-534): fields by position, source and time. An array is its shape and its values in Fortran order (first axis fastest), so that `reshape(order="F")` keeps the values. Simplified: the number of sources and times is fixed, indices are valid and not negative; data types are not modelled; sources are given by their indices (every source has one field); the location enters through the number of rows.
* `Verif/Flow/Empirical.lean`: Model of the empirical curves of `simpeg/flow/richards/empirical.py`, one cell at a time: values, derivatives with respect to the pressure head and with respect to every parameter.
* `Verif/Flow/Richards.lean`: Model of the Richards equation simulation (`simpeg/flow/richards/simulation.py`, `receivers.py`, `survey.py`): residual, its derivatives, and the sensitivity products.
* `Verif/Flow/Soils.lean`: Model of the construction of soil curves in `simpeg/flow/richards/empirical.py`, for C193: `_partition_args` (21-33), `haverkamp` (307-315), `van_genuchten` (812-820), the table of soils `VanGenuchtenParams` (823-935), and the curves for arrays of heads (127-136, 253-258, 371-381, 531-538).
* `Verif/HasModel/PropModel.lean`: Model of the physical property descriptors (`simpeg/props.py` 11-275): a property, its map, and optionally a reciprocal property with its map.
* `Verif/HasModel/PropProps.lean`: C21: one source of truth for a pair of reciprocal properties.
* `Verif/HasModel/Setter.lean`: Model of the `HasModel.model` setter (`simpeg/props.py` 402-485): length checks, nested modelers with rollback, and the deletion of model-dependent caches. C22, C53.
* `Verif/IO/Dcip.lean`: C157: files of the DCIP2D and DCIP3D programs in their formats of blocks, one per source (`read_dcip2d_ubc`, `read_dcip3d_ubc`, `write_dcip2d_ubc`, `write_dcip3d_ubc`, `simpeg/utils/io_utils/io_utils_electromagnetics.py` 192-419, 422-579, 611-784, 787-939). A file is its list of lines of numbers: comments, the lines in front of the first block (number of sources, type of data) and blank lines, which are skipped, are not modelled, nor is the splitting of lines into words. The two dimensions differ in the number of coordinates `k` and in one branch (`pad`).
* `Verif/IO/Drivers.lean`: # Input files of inversions of gravity and magnetic data Model of `GravityDriver_Inv` and `MagneticsDriver_Inv`, `/repo/simpeg/utils/drivers/gravity_driver.py` and `magnetics_driver.py`. The first part is `readDriverFile`, the second one the properties that are computed when first asked for. Not modelled: contents of the files (parameters), `magnetizationModel`, paths, and the number of a cell in a file.
* `Verif/IO/General.lean`: # Triangulated surfaces and downloads Model of `read_GOCAD_ts` and `download`, `/repo/simpeg/utils/io_utils/io_utils_general.py`. A file is the list of its lines; reading beyond the end gives empty lines for ever, as `readline` does. Not modelled: the network (what a URL delivers is a parameter), making of directories, messages.
* `Verif/IO/PotentialFields.lean`: C154: files of magnetic, gravity and gravity gradient data (`simpeg/utils/io_utils/io_utils_pf.py`). A file is a list of lines and a line a list of tokens (how Python splits a line at blanks is not modelled); a number token stands for the number that is read back from it, so printing rounds.
* `Verif/IO/Xyz.lean`: C156: files of resistivity data with a line of headers (`read_dcip_xyz`, `write_dcip_xyz`, `simpeg/utils/io_utils/io_utils_electromagnetics.py` 12-189, 981-1054). A file is its list of headers and its rows of numbers, as many in each row as headers; the splitting of lines into words and comments are not modelled. `gen` is `generate_survey_from_abmn_locations` (C155), given the four arrays of electrodes.
* `Verif/InvProblem/Model.lean`: Model of `simpeg/inverse_problem.py`: `BaseInvProblem.beta`, `getFields`, `get_dpred`, `evalFunction`. * `K` scalars, `V` models (gradients live in the same space), `Φ` fields, `D` data vectors; * a Python model array is an identity (`Nat`) with its content (`val`); arrays are not mutated in place (`warmstart` compares identities with `is`, 272-274); * the data misfit is a combo whose members are given flat (members that are themselves combos are members without a `simulation` attribute, as in the code); * the `"ubc"` printing block (326-351) only sets `phi_s ... phi_z` and is left out.
* `Verif/InvProblem/Props.lean`: C14: the inverse problem evaluates the trade-off sum.
* `Verif/Jacobian.lean`: Rules for Jacobians of functions of real vectors given as matrices (`Verif.IsJacobian`): sums, products, chain rule, uniqueness.
* `Verif/JacobianK.lean`: Jacobians of real or complex vector valued functions of a *real* parameter vector (the inversion model is real, the fields of a frequency domain simulation are complex), and the derivative of the solution of a linear system whose matrix and right-hand side depend on the parameters.
* `Verif/JacobianM.lean`: More rules for Jacobians of functions of a real model with values in `ℝ` or `ℂ`: products of a matrix and a vector which both depend on the model, and linear systems given by their residual.
* `Verif/Linear/Sim.lean`: Linear simulations (`simpeg/simulation.py` 610-975: `LinearSimulation` and `ExponentialSinusoidSimulation`; `simpeg/seismic/straight_ray_tomography/simulation.py`: `Simulation2DIntegral`) and the time mesh of time domain simulations (`simpeg/simulation.py` 437-603). Simplified: numbers are reals; the mapping from the model is an arbitrary function with an arbitrary derivative; `discretize` is modelled by what its operators mean on one-dimensional tensor meshes.
* `Verif/Maps/Between.lean`: C153: maps between meshes and to complex values: `TileMap` (`simpeg/maps/_base.py` 1180-1341), `Mesh2Mesh` (`simpeg/maps/_injection.py` 20-127) and `ComplexMap` (`simpeg/maps/_property_maps.py` 839-1015). Numbers are real or complex; the validators of the arguments are those of C95.
* `Verif/Maps/Clustering.lean`: C135: `PolynomialPetroClusterMap` (`simpeg/maps/_clustering.py`), the polynomial relation between two physical properties of a rock unit. Polynomials are lists of coefficients, lowest degree first.
* `Verif/Maps/Compose.lean`: Model of map composition, `simpeg/maps/_base.py`: `IdentityMap.__mul__`, `ComboMap`, `SumMap`. Two views are modelled. *Values*: maps between real vector spaces, with compatible dimensions enforced by types (`MapT n m` maps vectors of length `n` to length `m`). *Shapes*: the dimension checks themselves, with `"*"` for free dimensions (`ShapeT`).
* `Verif/Maps/ComposeProps.lean`: C15 (chain rule), C17 (`is_linear`, structural part), C18 (shapes), C51 (sums).
* `Verif/Maps/EffectiveAligned.lean`: Model of `SelfConsistentEffectiveMedium` with aligned inclusions (`simpeg/maps/_property_maps.py` 1378-1477, `random=False`), for C58.
* `Verif/Maps/EffectiveConverge.lean`: Convergence of the fixed point iteration of `SelfConsistentEffectiveMedium` (`simpeg/maps/_property_maps.py` 1431-1477, modelled in `EffectiveMedium`).
* `Verif/Maps/EffectiveMedium.lean`: Model of `SelfConsistentEffectiveMedium` with randomly oriented inclusions (`simpeg/maps/_property_maps.py` 1018-1526, `random=True`).
* `Verif/Maps/Elementary.lean`: Elementwise maps of `simpeg/maps/_property_maps.py`, over the reals, with C16: exact derivatives and inverses. `expit` and `logit` are scipy's functions.
* `Verif/Maps/Inject.lean`: Model of `InjectActiveCells` (`simpeg/maps/_injection.py` 130-342), with C20.
* `Verif/Maps/Parametric.lean`: Parametric maps: layers, blocks, ellipsoids, casings, blocks within layers and circles, as functions of a handful of parameters onto the cells of a mesh (`simpeg/maps/_parametric.py`). A cell is given by its centre; the maps are modelled cell by cell, the Jacobian row by row.
* `Verif/Maps/ParametricInterface.lean`: Parametric maps of two units separated by an interface: polynomials (`ParametricPolyMap`) and splines (`ParametricSplineMap`). `simpeg/maps/_parametric.py`
* `Verif/Maps/ParametricState.lean`: What parametric maps remember: the coordinates of the active cells are read once per axis and kept (`simpeg/maps/_parametric.py:1143-1231`), the polynomial map reads them every time.
* `Verif/Maps/Spherical.lean`: C152: the map from spherical to Cartesian components, `SphericalSystem` (`simpeg/maps/_base.py` 864-1065). Numbers are real.
* `Verif/Maps/Surject.lean`: Model of the surjection maps `SurjectFull`, `SurjectVertical1D`, `Surject2Dto3D` and `SurjectUnits` (`simpeg/maps/_surjection.py`), with C52.
* `Verif/Maps/Wires.lean`: Model of `Wires` and of `Projection` with a slice (`simpeg/maps/_base.py` 626-740, 1068-1177), with C19.
* `Verif/Meta/ChunkLayout.lean`: Array handling of the parallel meta simulations (`simpeg/meta/multiprocessing.py` 259-330, 376-404), for chunks of simulations in worker processes. Which replies arrive is the subject of `Meta/Parallel.lean`; here, what the head does with them.
* `Verif/Meta/Chunks.lean`: Distribution of simulations over processes (`simpeg/meta/multiprocessing.py` 231-259 and 453-480).
* `Verif/Meta/Dask.lean`: C148: simulations on a cluster, `DaskMetaSimulation` and its subclasses (`simpeg/meta/dask_sim.py`). Workers are natural numbers (addresses, which are compared as strings, in the code). What dask does is taken as: a task runs on a worker it may run on, after the tasks whose futures it takes; `client.map` over lists of different lengths stops with the shorter; each worker has its own copy of an object.
* `Verif/Meta/JtJ.lean`: Model of `MetaSimulation.getJtJdiag` (`simpeg/meta/simulation.py` 257-329) and `SumMetaSimulation.getJtJdiag` (409-423).
* `Verif/Meta/Layout.lean`: Model of the array handling of `MetaSimulation` and `SumMetaSimulation` (`simpeg/meta/simulation.py` 91-255, 332-407).
* `Verif/Meta/Parallel.lean`: `_SimulationProcess` and the calls of `MultiprocessingMetaSimulation` (`simpeg/meta/multiprocessing.py` 8-178, 263-330) on the queues of `Meta/Queues.lean`.
* `Verif/Meta/Queues.lean`: The processes and queues of `simpeg/meta/multiprocessing.py` (31-178): a head process that puts tasks into one queue per worker and takes replies from another, and workers that take a task, work on it and put replies. Every schedule of head, workers and queues is allowed.
* `Verif/Meta/State.lean`: Which models the members of a `MetaSimulation` and of a `RepeatedSimulation` hold during a history of calls (`simpeg/meta/simulation.py` 183-255, 426-478).
* `Verif/Misfit/Model.lean`: Model of `simpeg/data_misfit.py` (real data).
* `Verif/Misfit/Props.lean`: C12, C13: data misfit.
* `Verif/NSEM/Analytic.lean`: C159: the analytic plane wave fields and impedances of a layered Earth, `getEHfields` and `getImpedance` (`simpeg/electromagnetics/natural_source/utils/analytic_1d.py`). Arrays are functions of `ℕ`, from the bottom; entries outside of the arrays are never read. `n` is the number of cells, `σ` their conductivities.
* `Verif/NSEM/DataUtils.lean`: # Operations on natural source data Model of `rotate_data`, `extract_data_info`, `resample_data`, `convert3Dto1Dobject`, `appResPhs` and `skindepth`, `/repo/simpeg/electromagnetics/natural_source/utils/data_utils.py`.
* `Verif/NSEM/Deriv.lean`: The derivatives of the data of natural source receivers, and their adjoints.
* `Verif/NSEM/Earth.lean`: C166: apparent resistivities, phases and impedances of a layered Earth (`MT_LayeredEarth` of `simpeg/electromagnetics/analytics/NSEM.py`).
* `Verif/NSEM/Edi.lean`: # Import of EDI files Model of `EDIimporter` and its functions, `/repo/simpeg/electromagnetics/natural_source/utils/edi_files_utils.py`. Lines and names are lists of characters. Not modelled: reading of the files, `utm.from_latlon`, the list of stations, the masks.
* `Verif/NSEM/Efields1D.lean`: C182: one-dimensional electric fields on a mesh, `get1DEfields` (`simpeg/electromagnetics/natural_source/utils/solutions_1d.py`). The mesh has `m + 1` cells of widths `h`, from the bottom, conductivities `σ`; the nodes are the faces of the mesh. Simplified: numbers are exact, `Solver(Aii) * rhs` is multiplication by the inverse.
* `Verif/NSEM/Layered.lean`: C136: the magnetotelluric response of a layered Earth, `Simulation1DRecursive` (`simpeg/electromagnetics/natural_source/simulation_1d.py`). Arrays of the code that are reversed (top layer first) are functions of `ℕ`; entries outside of the arrays are never read. `n` is the number of layers above the half-space, `n_layer - 1`.
* `Verif/NSEM/LayeredData.lean`: C137: data, sensitivities and stored results of the layered magnetotelluric simulation (`simpeg/electromagnetics/natural_source/simulation_1d.py`).
* `Verif/NSEM/Primary.lean`: C158: the primary fields of plane waves, `primary_e_1d_solution` and `primary_h_1d_solution` (`simpeg/electromagnetics/natural_source/utils/source_utils.py` 14-153, 155-323), and the primary and secondary fields of `PlanewaveXYPrimary` (`simpeg/electromagnetics/natural_source/sources.py` 38-226). Cells are counted from the bottom. Arrays are functions of `ℕ`; entries outside of the arrays are never read.
* `Verif/NSEM/Props.lean`: Properties of the natural source receivers.
* `Verif/NSEM/Receivers.lean`: Model of the natural source receivers (`simpeg/electromagnetics/natural_source/receivers.py`). Fields have one column for each of the two polarisations of the source in three dimensions and one column otherwise. `f[src, "e"]` and `f[src, "h"]` are arbitrary here, and so are their derivatives; the fields objects are modelled elsewhere.
* `Verif/NSEM/Records.lean`: # Natural source data as record arrays Model of `Data.toRecArray` and `Data.fromRecArray`, `/repo/simpeg/electromagnetics/natural_source/survey.py`.
* `Verif/NSEM/Sim.lean`: The natural source simulations in one and two dimensions (`simpeg/electromagnetics/natural_source/simulation.py` 21-208, 292-744) and their fields (`fields.py` 16-180, 343-372). The electric and magnetic field simulations, in one and in two dimensions, have the same form: `A = C.T M1 C + i omega M2`, with a mass matrix `M1` for `mui` or `rho` on the cells, `M2` for `sigma` or `mu` on the nodes or edges, and the gradient or the curl for `C`. The other field is the property of `M1` times `C u`, up to a factor. Simplified as in `Verif/FDEM/Sim.lean`: exact solver, one source at a time; the edges of the left, right, upper and lower boundary are disjoint, and the cells of the one-dimensional meshes are in the order of the edges.
* `Verif/NSEM/StationPlot.lean`: Model of the curves of stations with error bars, and of maps of a frequency, for natural source data (`simpeg/electromagnetics/natural_source/utils/plot_utils.py` 563-869), for C204.
* `Verif/Objective/Find.lean`: Model of `ComboObjectiveFunction.get_functions_of_type` (`simpeg/objective_function.py` 534-557) and of the directives that use it (`simpeg/directives/_pgi_directives.py` 53-60 and 311-322), for C194.
* `Verif/Objective/L2.lean`: Model of `L2ObjectiveFunction` (objective_function.py 560-650) and of `ComboObjectiveFunction.W` (503-532), with real arithmetic.
* `Verif/Objective/Lemmas.lean`: Helper lemmas.
* `Verif/Objective/Model.lean`: Model of `simpeg/objective_function.py`: `BaseObjectiveFunction` arithmetic and `ComboObjectiveFunction`. `K` is the type of scalars, `V` the type of models. The optional `f` (precomputed fields) argument is not modelled here; see the inverse problem model.
* `Verif/Objective/Props.lean`: C08-C11: objective function algebra.
* `Verif/Objective/Spec.lean`: Specification vocabulary for objective function algebra.
* `Verif/Optim/BFGS.lean`: Model of the limited-memory `BFGS` (`simpeg/optimization.py` 1266-1331).
* `Verif/Optim/GNCG.lean`: Model of `ProjectedGNCG.findSearchDirection` (`simpeg/optimization.py` 1624-1711).
* `Verif/Optim/LineSearch.lean`: Model of the projected Armijo line search and of the scaling of the search direction (`simpeg/optimization.py` 122-190, 700-782), with C24 and C28.
* `Verif/Optim/Minimize.lean`: Model of `Minimize.minimize` (`simpeg/optimization.py` 462-529, 532-559, 643-647, 814-838) and of `Bounded` (909-1018).
* `Verif/Optim/Newton.lean`: Model of `NewtonRoot.root` (`simpeg/optimization.py` 1461-1517).
* `Verif/Optim/Phases.lean`: Model of the search directions and phases of `ProjectedGradient` (`simpeg/optimization.py` 1133-1264), for C190: steepest descent and conjugate gradients on the free components.
* `Verif/Optim/Stoppers.lean`: Model of `check_stoppers` (`simpeg/utils/code_utils.py` 270-302), with C23.
* `Verif/PDE/Mass.lean`: Property mass matrices and their model derivatives (`simpeg/base/pde_simulation.py`): `_inner_mat_mul_op` (15-83) and the members which `with_property_mass_matrices` (86-410) adds. The inner products of the mesh come from `discretize`, which is not part of the repository. They are modelled by their coefficients: an inner product is a matrix which is linear in the cell property, `M(σ)ᵢⱼ = Σₛ T i j s σₛ` (`T` also covers axis-aligned and full tensor properties, `s` then runs over all the components), and `get_*_inner_product_deriv(model)(u)` is the matrix `Σⱼ T i j s uⱼ`.
* `Verif/PDE/Solvers.lean`: Model of the choice of solvers: `simpeg/utils/solver_utils.py` 40-92, `simpeg/base/pde_simulation.py` 431-532, the places where simulations factor a matrix, and the initial Hessian of `simpeg/inverse_problem.py` 222-250.
* `Verif/PF/ActiveNodes.lean`: C181: the nodes of active cells of simulations of potential fields, `BasePFSimulation._get_active_nodes` (`simpeg/potential_fields/base.py`, 371-399). Simplified: positions are of any type; `cell_nodes` has `k` nodes for every cell, all of them nodes of the mesh.
* `Verif/PF/Cache.lean`: C90: what an integral potential field simulation remembers (`simpeg/potential_fields/gravity/simulation.py` 255-283, 420-443, `simpeg/potential_fields/magnetics/simulation.py` 218-227, 259-300, 380-407, 533-541, 822-827, `simpeg/potential_fields/base.py` 289-354). The settings of a simulation (survey, engine, kind of model, active cells, data type, ...) are an arbitrary type `C`; the direction of the inducing field and the matrix are arbitrary functions of them. The values which are remembered are kept in the state, as in the code.
* `Verif/PF/DaskOperator.lean`: C185: the linear operator of integral potential field simulations with dask (`simpeg/dask/utils.py` 4-26, `simpeg/dask/potential_fields/base.py` 9-73). A dask array is modelled by its values and the sizes of its chunks along the two axes; computing, persisting and rechunking do not change the values. The numbers computed by `evaluate_integral` are a parameter.
* `Verif/PF/Differential.lean`: C177: the finite volume simulation of magnetics (`Simulation3DDifferential`, `simpeg/potential_fields/magnetics/simulation.py` 1656-2201). `p` are the parameters of the model, `c` the cells, `e` the faces. Inner products of faces are diagonal, as on the meshes that the class is made for: that of an isotropic property `a` is `diagonal (W *ᵥ a)`, that of a vector with three numbers per cell `diagonal (W3 *ᵥ a)`. The solver is exact. Arithmetic is that of ℝ.
* `Verif/PF/EquivalentLayer.lean`: C149: layers of equivalent sources (`simpeg/potential_fields/base.py` 411-478, `simpeg/potential_fields/gravity/simulation.py` 727-945, `gravity/_numba/_2d_mesh.py`, `simpeg/potential_fields/magnetics/simulation.py` 1235-1655, `magnetics/_numba/_2d_mesh.py`, `simpeg/potential_fields/_numba_utils.py` 48-255). A cell of a mesh in the plane and two elevations form a prism. Arrays are functions of their index; the kernels of the libraries `geoana` and `choclo` are arbitrary functions, related only by what their names say (`Verif/PF/Kernel.lean`).
* `Verif/PF/Kernel.lean`: C88: the entries of the sensitivity matrix of integral potential field simulations (`simpeg/potential_fields/base.py`, `gravity/simulation.py`, `magnetics/simulation.py`, `_numba_utils.py`). The kernels of the libraries `geoana` and `choclo` are arbitrary functions of the vector from the receiver to the node, related only by what their names say.
* `Verif/PF/Layout.lean`: C87: the order of the data of integral potential field simulations, and the agreement of the ways to compute them (`simpeg/potential_fields/base.py`, `gravity/simulation.py`, `magnetics/simulation.py`, `gravity/_numba/_3d_mesh.py`, `magnetics/_numba/_3d_mesh.py`). `L` are the locations, `C` the components, `K` the columns of the sensitivity matrix (the active cells, or three times as many for vector models). The entry of the matrix for a component, a location and a column is an arbitrary function; `Verif/PF/Kernel.lean` models it.
* `Verif/PF/Numba.lean`: C176: the compiled loops of the integral simulations of gravity and magnetics (`simpeg/potential_fields/magnetics/_numba/_3d_mesh.py` and `_2d_mesh.py`, `simpeg/potential_fields/gravity/_numba/_3d_mesh.py` and `_2d_mesh.py`, `simpeg/potential_fields/_numba_utils.py`). Arrays are functions of the index, and the loops change them entry by entry as the code does. The functions of the magnetic components (`…_mag`), of the total field (`…_tmi`) and of its derivatives (`…_tmi_derivative`) differ in the kernels only, here a table of three or six kernels. Parallel loops run in any order of the receivers; those that add arrays run in any number of threads, each with its own sum (the reduction of Numba). Arithmetic is that of ℝ.
* `Verif/PF/Sens.lean`: C89: sensitivities of integral potential field simulations (`simpeg/potential_fields/gravity/simulation.py` 218-420, `simpeg/potential_fields/magnetics/simulation.py` 240-565). `G` is the matrix of the linear operator, `P` the derivative of the mapping at the model. Numbers are real: the conversions to `sensitivity_dtype` are not modelled.
* `Verif/PF/Spheres.lean`: C160: the analytic fields of spheres (`simpeg/potential_fields/gravity/analytics.py` and `simpeg/potential_fields/magnetics/analytics.py`). Arrays are treated one location at a time; `none` stands for a value that is not a number. Constants of nature are parameters.
* `Verif/Receivers/Model.lean`: Model of the projection-matrix caches of receivers, `simpeg/survey.py` `BaseRx.getP` (130-164) and `BaseTimeRx.getP` (258-279). `L` is the type of locations, `M` of meshes, `T` of time meshes, `G` of grid names and `P` of projection matrices; dictionary keys compare meshes by identity, modelled by equality.
* `Verif/Receivers/Props.lean`: Property theorems for C06 (projection caches of receivers).
* `Verif/Reg/Alphas.lean`: Model of the alphas, length scales and multipliers of `WeightedLeastSquares` (`simpeg/regularization/base.py` 1721-1837, 1901-2144, 2210-2228) and of the evaluation of the weighted sum (`simpeg/objective_function.py` 421-425, 455-470). Numbers are real; NaN is not modelled.
* `Verif/Reg/Calculus.lean`: Small rules about gradients and Jacobians used for the regularizations.
* `Verif/Reg/CrossGradient.lean`: C80: the cross-gradient coupling term of joint inversions (`simpeg/regularization/cross_gradient.py`). A model holds two properties, one after the other: `κ ⊕ κ` are its entries, `κ` the active cells, `φ` the active faces (of all directions). Simplified: the wires are those of two properties of the size of the mesh, in the order of the model.
* `Verif/Reg/FullGradient.lean`: C83: `SmoothnessFullGradient` (`simpeg/regularization/_gradient.py`). The mesh has the cells `Fin n` and `d` dimensions; `φ` are its faces, `q` the corners of a cell.
* `Verif/Reg/Joint.lean`: C81 and C82: the other coupling terms of joint inversions, `JointTotalVariation` (`simpeg/regularization/jtv.py`) and `LinearCorrespondence` (`simpeg/regularization/correspondence.py`). `κ` are the active cells, `φ` the active faces, `π` the properties of a model; the entries of a model are `π × κ`, property by property. Simplified: the wires select the properties in the order of the model, all of the size of the mesh.
* `Verif/Reg/Lp.lean`: Model of the iteratively re-weighted least-squares weights (`simpeg/regularization/sparse.py` 135-207).
* `Verif/Reg/Mesh.lean`: C85: the operators of `RegularizationMesh` (`simpeg/regularization/regularization_mesh.py`) on the active cells, along one direction. `κ` are the cells of the mesh and `φ` its faces in that direction. The operators of the mesh itself belong to `discretize`, which is not part of the repository; they are modelled as documented there.
* `Verif/Reg/Norms.lean`: Model of the norms of the sparse regularisation (`simpeg/regularization/sparse.py` 103-133, 976-1008). Numbers are exact.
* `Verif/Reg/PGI.lean`: C130: the least-squares form of the petrophysical smallness term `PGIsmallness` (`simpeg/regularization/pgi.py`), the default of `PGI`. `π` are the physical properties, `κ` the active cells, `Fin (n + 1)` the rock units of the Gaussian mixture. The entries of a model are `π × κ`, property by property, which is the order `Wires` and `mkvc` use. Simplified: every property has one parameter per cell (the maps may be non-linear and mix cells), linear relationships only.
* `Verif/Reg/PGIFull.lean`: C131: the full mixture form of `PGIsmallness` (`approx_eval=False`, `approx_gradient=False`, `approx_hessian=False`; `simpeg/regularization/pgi.py`), which uses the log-probabilities of `WeightedGaussianMixture` (`simpeg/utils/pgi_utils.py`). Same conventions as `Verif.Reg.PGI`.
* `Verif/Reg/PGIState.lean`: C132: the state of `PGIsmallness` (`simpeg/regularization/pgi.py`) over a history of calls: the reference model that the first evaluation sets, the block `_r_second_deriv` kept for the Hessian, and the update made by `PGI_UpdateParameters` (`simpeg/directives/_pgi_directives.py`). Least-squares form, conventions of `Verif.Reg.PGI`.
* `Verif/Reg/Radian.lean`: C86: `SmoothnessFirstOrder` for angles, with `units="radian"` (`simpeg/regularization/base.py` 1080-1095). The operators are those of `RegularizationMesh` along one direction.
* `Verif/Reg/TotalGradient.lean`: C207: the weights of sparse smoothness with the total gradient (`simpeg/regularization/sparse.py`, `SparseSmoothness.update_weights`, 580-661), on tensor meshes. The averages are those of C85, the weights those of C41.
* `Verif/Reg/Value.lean`: Model of the value, gradient and Hessian of the regularisations (`simpeg/regularization/base.py` 373-464, 619-755, 1008-1092, 1094-1161, 1366-1507).
* `Verif/Reg/Vector.lean`: C84: regularization of models of vectors (`simpeg/regularization/vector.py`). `κ` are the cells and `Fin n` the components; a mapped model is indexed by `Fin n × κ`, component by component.
* `Verif/Reg/Weights.lean`: Model of the weights of a regularisation: `BaseRegularization.set_weights`, `remove_weights`, `W` (`simpeg/regularization/base.py` 279-354) and the `W` of `SmoothnessFirstOrder` (1163-1186).
* `Verif/Seismic/Ray.lean`: Straight ray tomography (`simpeg/seismic/straight_ray_tomography/simulation.py`): the length of a ray in a cell, the rows of the matrix of lengths and the predicted travel times. Simplified: numbers are reals, so divisions and square roots are exact; sorting is a merge sort of the four values (Python's `sorted` is a stable sort, and equal numbers cannot be told apart).
* `Verif/Survey/Lemmas.lean`: Helper lemmas for the survey model.
* `Verif/Survey/Model.lean`: Model of `simpeg/survey.py` (source / receiver bookkeeping) and of the assembly of predicted data in `simpeg/simulation.py`. Python object identity (`is`, and the default `__hash__`/`__eq__` of receivers and sources) is modelled by a natural number `id`. Only the attributes which the modelled methods use are kept: the number of data of a receiver and the list of receivers and number of field columns of a source.
* `Verif/Survey/Props.lean`: Property theorems C01, C03, C04 and the source index part of C05.
* `Verif/Survey/Spec.lean`: Specification vocabulary for the survey properties (independent of the loops).
* `Verif/TDEM/Cases.lean`: Cases which meet the hypotheses of the theorems about the time domain simulations (C72 to C76), and cases in which the code does not have the properties.
* `Verif/TDEM/Convolve.lean`: C178: the convolution of a step-off response with a waveform, `convolve_with_waveform` (`simpeg/electromagnetics/utils/waveform_utils.py` 75-126), and the waveform function `VTEMFun` (51-72). Simplified: `integrate.quad` is the exact integral; the numbers are real; `fargs` and `fkwargs` are part of the function. The waveforms are those of C77.
* `Verif/TDEM/Dipoles.lean`: C162: the analytic transient fields of dipoles and loops (`simpeg/electromagnetics/analytics/TDEM.py`).
* `Verif/TDEM/EB.lean`: The electric field and magnetic flux density formulations of the time domain simulation (`simpeg/electromagnetics/time_domain/simulation.py` 644-1723) and their fields objects (`fields.py` 149-506). Simplified: mesh operators are arbitrary matrices; the magnetic permeability does not depend on the model (the constructor rejects a map for it, 57-61); the source terms of a source at the nodes of the time mesh are given as vectors by time index, their derivatives are zero as in every source of the code; a receiver for a field which the fields object does not provide (`b`, `h` of the electric field formulation) is not represented. The matrix is made symmetric, as `_makeASymmetric` is always `True` (`electromagnetics/base.py` 39-43).
* `Verif/TDEM/HJ.lean`: The magnetic field and current density formulations of the time domain simulation (`simpeg/electromagnetics/time_domain/simulation.py` 1726-2695) and their fields objects (`fields.py` 509-878). Simplified as in `EB.lean`; receivers for `charge` and `charge_density`, which have no derivatives, are not represented.
* `Verif/TDEM/Laws.lean`: C75, C76: conservation laws, the initial fields of grounded sources, and stability of the time stepping for any time steps.
* `Verif/TDEM/Maxwell.lean`: C72, C74, C75: what the time stepping solves. The specification is Maxwell's equations discretised in time by the backward Euler rule, for vectors indexed by the nodes of the time mesh.
* `Verif/TDEM/Piecewise.lean`: C77: `PiecewiseLinearWaveform` (`simpeg/electromagnetics/time_domain/sources.py` 817-908). Simplified: times and currents are real numbers; `eval_deriv` of an array is taken at one time. `np.argsort` may return equal times in any order; the model keeps their order, and the theorems are about distinct times.
* `Verif/TDEM/Sim.lean`: The time domain simulations (`simpeg/electromagnetics/time_domain/simulation.py` 18-632, `receivers.py` 104-208, `simpeg/simulation.py` 470-607), independently of the formulation: time stepping, predicted data, `Jvec` and `Jtvec`. Simplified: the solver is exact; the fields handed to the products are those of the model handed to them; a term which is `Zero()` is a zero vector; the sums over sources and receivers, which the code nests inside the loops over time, are taken source by source; the receivers of a source are distinct objects, so that the slices of the data vector are consecutive.
* `Verif/TDEM/Solvable.lean`: C72: the systems which the time domain simulations solve have exactly one solution, for positive time steps and physical properties; so do the DC problems of grounded sources.
* `Verif/TDEM/Sources.lean`: C78: the sources of the time domain simulations and their waveforms (`simpeg/electromagnetics/time_domain/sources.py` 1186-2207): `MagDipole`, `CircularLoop` and `LineCurrent`. Simplified: the geometry of the sources (vector potentials, line integrals) is given as vectors for a unit current; the sources are those of one mesh.
* `Verif/TDEM/Waveforms.lean`: C77: the current waveforms of time domain sources (`simpeg/electromagnetics/time_domain/sources.py` 34-1041): step, ramp, VTEM, trapezoid, triangle, sines and exponential. `PiecewiseLinearWaveform` is in `Piecewise.lean`. Simplified: times are real numbers, not floats; `eval_deriv` of an array is taken at one time. `RawWaveform` returns what the function of the user returns and is not modelled.
* `Verif/Utils/Angles.lean`: Model of the angle and coordinate conversions in `simpeg/utils/mat_utils.py` (241-453), one row of the arrays at a time, with real numbers.
* `Verif/Utils/Blocks.lean`: Model of the block, sphere and layer functions of `simpeg/utils/model_builder.py` (13-200, 257-376, 416-467).
* `Verif/Utils/Bounds.lean`: Model of the bounds of `SelfConsistentEffectiveMedium` (`simpeg/maps/_property_maps.py` 1282-1317), one entry at a time.
* `Verif/Utils/Counter.lean`: # Counters and timers of method calls Model of `Counter`, `count` and `timeIt`, `/repo/simpeg/utils/counter_utils.py`. The clock is any sequence of readings. Not modelled: the text `summary` prints (only the numbers in it).
* `Verif/Utils/Deprecate.lean`: Model of the deprecations of `simpeg/utils/code_utils.py` (514-832): classes, properties, methods, functions and modules under old names, for C191.
* `Verif/Utils/GMM.lean`: C133: the parameters of the Gaussian mixtures of `simpeg/utils/pgi_utils.py`: sorting the units by proportion, matching the units with those of the reference mixture, and the update with priors. `K` units, `π` physical properties. The square roots of the covariances come from scikit-learn and are not modelled here (see C131 for what is used of them).
* `Verif/Utils/GMMEstimate.lean`: Model of the M steps of the mixtures of `simpeg/utils/pgi_utils.py` (352-439 without, 1466-1500 and 1572-1596 with nonlinear relationships), for C192: means, covariances and proportions of the units from samples, cell volumes and responsibilities. Real arithmetic; `K` units, `p` physical properties.
* `Verif/Utils/GMMFit.lean`: Model of `GaussianMixtureWithPrior.fit` and `fit_predict` (`simpeg/utils/pgi_utils.py` 1116-1264): the repeated expectation-maximization with forced memberships, for C189. The steps themselves are modelled in C133 (`Verif/Utils/GMM.lean`); here they are any functions.
* `Verif/Utils/GMMStart.lean`: Model of the starting values of the Gaussian mixtures of `simpeg/utils/pgi_utils.py`: checks of the proportions (214-262), starts of the mixtures with relationships (1354-1393 and 1689-1728), their log-probabilities (1396-1449 and 1730-1784), and the precisions and covariances of the units (135-177), for C196.
* `Verif/Utils/Hooks.lean`: C183: hooks, memory of optimizations, keyword arguments and deprecated names. `call_hooks`, `set_kwargs`, `hook`, `requires` and the deprecations (`simpeg/utils/code_utils.py`), `Remember` and the hooks of the end of an iteration (`simpeg/optimization.py` 813-845, 853-906). Names are lists of characters; the attributes of an object are a function of the names. Messages are not modelled.
* `Verif/Utils/LayerPlot.lean`: Model of `plot_1d_layer_model` and `plotLayer` (`simpeg/utils/plot_utils.py` 273-386), for C201: which curve is drawn for a layered model.
* `Verif/Utils/ModelCache.lean`: C184: models with a map and the indices of receivers: `Model` (`simpeg/models.py`), `BaseSrc._rxOrder` and `BaseSrc.get_receiver_indices` (`simpeg/survey.py` 341-349, 364-385). Simplified: a model is the list of its values; a map is its function with the number of parameters; receivers are given by their identifiers.
* `Verif/Utils/Plot2D.lean`: Model of the limits, levels, options and shades of `plot2Ddata` (`simpeg/utils/plot_utils.py` 8-270), for C200.
* `Verif/Utils/Probing.lean`: Model of `estimate_diagonal` (`simpeg/utils/mat_utils.py` 27-103).
* `Verif/Utils/RandomModel.lean`: C180: random and elliptic models, models from functions and the checks of polygons, `simpeg/utils/model_builder.py` (`create_random_model` 470-550, `create_ellipse_in_wholespace` 203-254, `create_from_function` 379-413, `get_indices_polygon` 553-577). Simplified: the numbers are real; the random numbers are any numbers; `none` stands for models with NaN.
* `Verif/Utils/SurfaceLayer.lean`: # The layer of cells below the topography Models `surface_layer_index` of `simpeg/utils/model_utils.py` on tensor meshes of three dimensions. The nearest-point searches of `griddata(method="nearest")` and of `cKDTree` (libraries) are parameters: any function that returns a nearest point is admitted.
* `Verif/Utils/Tables.lean`: Model of the tables printed during an inversion: `print_titles`, `print_line`, `print_done` and `print_stoppers` (`simpeg/utils/code_utils.py` 192-328), for C202. Text is a list of characters.
* `Verif/Utils/Topo.lean`: Discrete topography and draping of points on it (`simpeg/utils/mesh_utils.py` 103-290), for tensor meshes. Tree meshes are not modelled.
* `Verif/Utils/Validators.lean`: Model of the input validators (`simpeg/utils/code_utils.py` 793-1283).
* `Verif/Utils/Weights.lean`: # Depth weights and distance weights Models `depth_weighting`, `_distance_weighting_numba` and `distance_weighting` of `simpeg/utils/model_utils.py`. Floating point numbers are replaced by real numbers together with the two infinities and the not-a-number value, because powers of zero and divisions of zero by zero are reachable through the arguments of these functions. Rounding is not modelled. The nearest-neighbour query of `cKDTree` (a library) is a parameter of the model: any function that returns a nearest point is admitted, so ties may be broken in any way.
* `Verif/VRM/Assignments.lean`: C205, C206: attributes that are checked against each other, under any history of assignments. * `ArbitraryDiscrete.t_wave` and `I_wave` (`simpeg/electromagnetics/viscous_remanent_magnetization/waveforms.py` 363-405); * `PiecewiseLinearWaveform.times` and `currents` (`simpeg/electromagnetics/time_domain/sources.py` 829-874); * `engine`, `store_sensitivities` and `sensitivity_path` of potential-field simulations (`simpeg/potential_fields/base.py` 81-108, 190-194, 241-256, 355-369, and `simpeg/simulation.py` 126-128).
* `Verif/VRM/Geometry.lean`: C141: the geometry matrix of viscous remanent magnetization (`simpeg/electromagnetics/viscous_remanent_magnetization/simulation.py` 153-811): the field of a magnetized cell at a receiver, square loops by Gauss quadrature, refinement of cells.
* `Verif/VRM/LogUniform.lean`: C139: the decay of viscous remanent magnetization with a log-uniform distribution of relaxation times (`simpeg/electromagnetics/viscous_remanent_magnetization/waveforms.py` 88-158, 237-341).
* `Verif/VRM/Simulation.lean`: C142: the simulations of viscous remanent magnetization (`simpeg/electromagnetics/viscous_remanent_magnetization/simulation.py` 726-760, 813-1055 and `survey.py`): order of the data, active channels, sensitivities, stored matrices. The rows of the geometry matrix (C141) and the decays at the channels (C138, C139) are given.
* `Verif/VRM/Sources.lean`: C140: the inducing fields of the sources of viscous remanent magnetization and the choice of the cells to refine (`simpeg/electromagnetics/viscous_remanent_magnetization/sources.py`). The field of the circular loop, in elliptic integrals, is not modelled; its rotation and refinement are.
* `Verif/VRM/Waveforms.lean`: C138: the characteristic decay of the waveforms of viscous remanent magnetization (`simpeg/electromagnetics/viscous_remanent_magnetization/waveforms.py`). Arrays are lists of reals; rounding is not modelled.

## Not modelled

* data types of arrays other than where a comment says so, negative indices of fields, rounding of floating point numbers, memory and speed
* the libraries: numpy, scipy, discretize (operators are parameters with the stated properties, or the tensor-mesh formulas where cited), scikit-learn, geoana kernels, numba and dask themselves
* plotting, printing, reading and writing of files other than those of C154, C156, C157, C169, C171 and C172
* simulations patched by simpeg/dask beyond the operators, caches and blocks of C185 and C186 (the cluster meta-simulation of simpeg/meta/dask_sim.py is modelled in C148)
* analytic solutions: those of simpeg/electromagnetics/analytics are covered by C160 to C166 except for J_galvanic and J_inductive and for the derivation of hzAnalyticDipoleF

## Defects noticed while reading

Those with a property id are theorems; the others were only read, not proved.

* C22, C29, C30: the model setter keeps caches when the new model is np.allclose to the old one, or is the same array changed in place.
* maps: assigning InjectActiveCells.active_cells after construction does not update the projection or the inactive values; SurjectUnits keeps its matrix after indices change; IdentityMap(mesh, nP=k) has a shape different from what it returns; Weighting and LogisticSigmoidMap deriv(m, v) are wrong for sparse v; PolynomialPetroClusterMap returns a transposed derivative matrix; Wires accepts negative sizes.
* optimization.py: ProjectedGNCG masks the residual and not the preconditioned direction (C54); BFGS stores mismatched pairs and ignores the newest (C27); scaleSearchDirection uses abs(max(p)) (C28); NewtonRoot does maxIter + 1 steps (C50).
* meta/multiprocessing.py: after an exception in a worker replies are out of step (C33); sums over chunks are concatenated (C55).
* directives: UpdateIRLS clears stop requests (C37), raises for a zero misfit (C35), does not restore the cooling factor (C56); MultiTargetMisfits applies ~ to Python booleans (1523-1525).
* regularization: set_weights is not atomic (C39); no weights at all makes W raise; negative weights give NaN; assigning active_cells discards user weights; the cell gradient cache is not cleared; SmoothnessSecondOrder with units="radian" reads an attribute that does not exist; get_lp_weights can be all zero (C41); norms rollback uses stale values (C42).
* utils: Hashin-Shtrikman bounds swapped (C46); create_2_layer_model upside down and create_layers_model sorts independently (C57); estimate_diagonal raises with default arguments (C45); validate_float accepts NaN and validate_integer truncates (C49); validate_active_indices accepts negative indices; validate_direction of a zero vector is NaN; get_indices_polygon asserts that never fail.
* SelfConsistentEffectiveMedium: results depend on earlier calls (C58); maxIter=0 raises UnboundLocalError.
* Richards: Jtvec without fields raises AttributeError (C47); sensitivities with method="head" are wrong (C60); np.full_like(u, Ks) truncates Ks for integer heads.
* DC: Neumann matrices are pinned in row 0 but their derivative is not (C63, C64); _q, mass matrices, Ainv and _gtgdiag go stale (C66); dpred leaves the mini survey in place when it raises (C66); the mini survey ignores currents and data types (C65); Fields3DNodal cannot differentiate e or j; coinciding cell centred electrodes overwrite each other in the source vector; drape_electrodes and set_abmn misalign multipole sources.
* pde_simulation: only sigma/rho (mu/mui) clear mass matrices, assigning the map or the mesh does not; the tuple branch of _inner_mat_mul_op ignores further vectors per field in the adjoint; derivatives of inverse mass matrices are exact only for diagonal inner products (C67).
* FDEM: MfMuiDeriv(s_m) and MeMuIDeriv(s_m) in getRHSDeriv use the source terms of all sources of a frequency and raise (C68); derivatives of MagDipole source terms are zero in HJ formulations (C68); j of the B formulation lacks the primary field and the derivative of s_e (C68, C69); _bSecondary of the E formulation never advances its column index (C71); PrimSecSigma cannot be constructed (unexpected keyword _ePrimary); PointMagneticFieldSecondary raises in 3D (no _hSecondaryDeriv); survey frequency groups are stale after changes (C70); _eDeriv_m of J and H ignore jPrimary.
* TDEM: fields reuses factors when the step differs from the one before by at most dt_threshold (1e-8 s by default), and fields can then grow without sources (C72, C76); getRHS of the J simulation uses the wrong time step and ignores the last time (C72, C74); Jvec is zero for contributions of the last time (C73); Jtvec ignores the initial condition of grounded sources in H and J and scales it by dt0/dt1 in E, and needs two steps (C73); found by reading, without a theorem: dbdt of the J fields cannot be computed for several sources at once.
* sources: see C78 and C79 (MagDipole.s_e compares the time with the duration time_steps[1], initial fields assume a waveform of one, hInitial of a closed LineCurrent forgets the current in the boundary term, _aInitial evaluates the waveform at time 0; LineCurrent, CircularLoop and time domain MagDipole objects cannot be used on a second mesh or changed after first use).
* waveforms: see C77 (StepOff with negative off_time, RampOff jump of size epsilon, VTEM before time zero, off_time of trapezoids unused, overlapping ramps).
* survey.py: BaseSrc receiver lookup by order always raises TypeError; unique times are cached. objective_function.py: no __sub__, and sum([...]) raises TypeError. ExponentialSinusoidSimulation never invalidates its caches.
* ProjectedGradient: the line search accepts points where all components are bound and the next iterate leaves the binding set (C25_violated_binding).
* regularization: CrossGradient ignores registered weights and reports signed magnitudes in 2D (C80); JointTotalVariation accepts eps = 0 (C81); LinearCorrespondence builds errors for wrong wires without raising them and does not check the size (C82); SmoothnessFullGradient refuses directions per active cell and its documented example (C83); vector regularizations: component weights count with their norm and not the geometric mean, (nC, n) weights are ignored or raise, amplitude gradients are wrong for nonlinear mappings, amplitude smoothness is that of the vectors, ref_dir is documented transposed (C84).
* regularization mesh: aveFx2CC at the edge of the active cells, aliasing of active_cells, index arrays (C85).
* potential fields: weights in the forward-only diagonal of choclo (C87); M ignored by choclo, negative amplitudes (C88); getJtJdiag for shared parameters, and amplitude data without weights (C89); stale matrices, diagonals, directions and files (C90).
* directives: UpdateIRLS keeps the IRLS weights of an earlier run (C56); MultiTargetMisfits keeps targets and truncates (C91); JointScalingSchedule is order dependent and raises for lists (C92); BetaEstimateMaxDerivative at the zero model, n_pw_iter of ScalingMultipleDataMisfits_ByEig, compounding of AlphasSmoothEstimate_ByEig (C94); UpdatePreconditioner lacks the factor two and the multipliers (C95); UpdateSensitivityWeights divides by zero and counts parameters several times (C96); validation gaps (C97).
* saving and joint directives: aliasing and misalignment in _sim_directives (C98); with_suffix cuts names at dots, load_results never succeeds, columns without outer multipliers, dictionary entries overwritten (C99).
* natural source: admittance formula, locations_h in one dimension (C100); getJ with several locations, xx and yy in one and two dimensions (C101); stale boundary fields, widths of tree meshes, permeability without a map (C102).
* 2.5D resistivity: _MBC_sigma of the nodal simulation is never cleared (C104); boundary matrices survive changes of bc_type and surface_faces, nky cannot be changed (C105); receivers of e and j cannot be predicted.
* straight rays: rays along grid lines are counted twice (C107); a ray which misses the mesh hands an empty array of floats to sub2ind; the matrix is kept when mesh or survey change (C108), getJ of the base class needs G, which does not exist. TimeFields: lists of sources with lists of times (C110).
* induced polarization: maps which are not linear give wrong predictions and sensitivities (C111); the regularisation of the 2.5D cell centred Neumann matrix by one is not scaled (C111); nothing is cleared on model update, dpred(m, f) ignores both arguments, replaced conductivities keep old fields, weights of getJtJdiag are kept (C112).
* geometry of resistivity surveys: apparent resistivities ignore the current and eps biases them (C113); draping fails for sources without receivers and multipoles, locations are stale after a new source list (C114); electrodes in one cell overwrite each other (C115); nearest centre instead of containing column, and positions of one column with the elevation of another (C116); get_discrete_topography documents integer indices but reshapes them like a mask.
* 2D lines from 3D surveys: sources at the same position and different elevation each receive all receivers of that position, so data are duplicated; a line with one source position has no direction and loses its data; source currents are dropped; dipoles perpendicular to the line become poles; the origin is the lexicographically first source (C117).
* spectral induced polarization: predictions go time by time while Data and Jtvec read receiver by receiver, so the gradient is wrong with several receivers in three dimensions (C119); receivers with different times break Jvec and Jtvec (C119); storeJ=True in three dimensions raises AttributeError (rx.projGLoc(f), simulation.py 385) and getJtJdiag always raises (survey.locations_n, 416); products with stored sensitivities use properties of the last evaluated model (C120); a receiver shared by sources divides by the voltage of the last one (C121); from_dc_to_sip_survey reads src.loc which does not exist.
* self potential: CurrentDensityMap with active cells drops the current between cells of different volumes, HydraulicHeadMap has the opposite sign of its documentation, Jtvec is not the adjoint with Neumann conditions (C122); getJ and getJtJdiag go stale (C123).
* parametric maps: the documentation of ParametricCircleMap exchanges the values inside and outside, that of ParametricLayer gives another formula (C125); the derivative of the 3D polynomial map takes the coefficients in another order than the map (C124); the derivative of the spline map is zero for normal='X' (the default) and for the top nodes in three dimensions, it needs a previous evaluation and otherwise uses the spline of the last one (C124); coordinates are kept when active cells change (C127).
* line sources: _findlast looks at all but the last cell of each axis, so wires there raise ValueError; on tree meshes the check of vertices looks at points[0] each time and its format string '{.1f}' raises AttributeError (C128). line_through_faces: the sign is opposite to the edge source term, so E-B and H-J line sources differ in sign; a face is overwritten by a second turn; points in one cell raise IndexError; np.allclose with its relative tolerance takes grounded wires in UTM coordinates for loops (C129); with normalize_by_area=False the check compares area weighted fluxes.
* petrophysically guided inversion: Hessian matrices are not symmetric for maps with different derivatives (C130, C131); the reference model depends on the first evaluation and the Hessian block goes stale (C132); cluster matching, mapping order, proportions and full priors (C133); tolerance and limits of the schedule, PGI_AddMrefInSmooth never sets the reference model of the smoothness terms because it tests WeightedLeastSquares objects for being smoothness terms, and raises AttributeError without MultiTargetMisfits (C134); PolynomialPetroClusterMap.deriv returns the transpose (C135). Not in theorems: PGI.reference_model set to a float needs _nC_residual, which does not exist; CLtarget with approx_eval=False passes externalW, which is not a parameter; PGIsmallness with its documented default wiresmap=None raises; fixed memberships refer to the mixture sorted by weight, not the user's order; with update_gmm=False a mixture set by the user is replaced by the reference mixture.
* layered magnetotellurics: receivers with several locations, complex receivers, getJtJdiag with shared parameters, and getJtJdiag after a first call (C137); orientation of receivers is not read, so xx, yy and yx receivers all return the xy impedance.
* viscous remanent magnetization: ArbitraryPiecewise and ArbitraryDiscrete keep only samples up to the last positive current and their rates subtract instead of adding a boundary term (C138); waveforms that start switched on use index -1 and return zero, without positive current IndexError, Custom.getCharDecay(times) does not match the call getCharDecay(field_type, times) of the simulation and raises TypeError (C138); getLogUniformDecay does not check for the off-time (C139); NaN in line with wires, centre of loops not refined (C140).
* viscous remanent magnetization, continued: responses inside a cell (C141); nD with inactive channels, receiver index used for sources and channel-major order in Simulation3DLogUniform, matrices kept when cells, refinement or survey change (C142).
* layered electromagnetics: src_y * rx_x * rx_x in the dipole coefficient, orientation of receivers of line currents (C143); with hMap the fields ignore the height while the sensitivities do not (also doubled and real), J['ds'] of chargeable layers, getJtJdiag, coefficients kept after survey, topo or n_points_per_path change, TDEM get_coefficients without _W, PointMagneticField ignores ppm (C144); mixing numbers and arrays in compute_complex_sigma and compute_complex_mu, documentation of ColeCole (C145); get_vertical_discretization_* loop forever for one layer, time channels within a factor of four filter ratios raise in the spline, points for the range of times lack the factor 1/2 (C146). Not in theorems: the primary field of a dipole over layers is stored and never renewed.
* layered resistivity: A /= geometric_factor divides along the wrong axis, zip(src.current, src.location) drops electrodes when one current is given, _coefficients_set survives a new survey and _Jmatrix a new filter (C147). Not in theorems: electrodes below the surface are treated by slant distance as if they were at the surface; without maps getJ returns the number 0.
* cluster meta-simulations: n_assigned = len(objects) with a strict comparison leaves objects without worker on one-worker clusters or with one object; sorting None keys raises TypeError; _store_model changes the copy of one worker only; fields of one model race with the next model; _calc_dpred ignores fields of repeated simulations (C148). Not in theorems: hasattr(self, '__model_map') is never true, so the shape is asked from a worker at each assignment.
* layers of equivalent sources: _gtg_diagonal_without_building_g passes all the weights for each component as in 3D; elevations are not compared; NumPy integers as elevations raise TypeError in len (C149).
* model_utils.py: depth_weighting ignores every keyword but indActive, accepts arrays of one axis, gives not-a-number with threshold 0 at the reference height; exponent of distance_weighting is twice that of depth_weighting although both are documented as the decay power; no reference locations give not-a-numbers (C150); surface_layer_index can mark cells above the ground, fails from the second layer on for meshes with one column, and for [x, z] topography (C151).
* SphericalSystem: with a mesh nP is nC, so arrays of 3 nC values are refused; deriv folds the angles into their ranges and so has columns of the wrong sign elsewhere; the kept derivative is compared with the array itself, which may have been changed in place (C152). TileMap divides by the whole local volume and never uses tol; Mesh2Mesh keeps its matrix; M.adjoint() in the documentation of ComplexMap does not give the numbers shown (C153).
* io_utils_pf.py: write_gg3d_ubc renames the components of the receiver object in place, a second write or a simulation fails; zero data are read as not-a-number, zero gradient data with uncertainties are read as the uncertainties; read_mag3d_ubc and read_grav3d_ubc loop forever on truncated files; data of any component are read as tmi or gz (C154).
* generate_survey_from_abmn_locations: nearly equal sources raise ValueError, and dipoles in large coordinates become poles because of the relative tolerance of isclose (C155). read_dcip_xyz uses the position of a header in the file as position among the loaded columns; surface data of a line use columns 1 to 4 instead of 0 to 3; files with one row raise IndexError (C156).
* read_dcip2d_ubc and read_dcip3d_ubc never reset is_pole_tx and is_pole_rx, so electrodes of dipoles after a pole are dropped; surface pole receivers in 3D lack the elevation; write_dcip3d_ubc overwrites data_object.standard_deviation with apparent resistivities; source currents are neither written nor divided out (C157).
* primary_e_1d_solution / primary_h_1d_solution with bot_bc='dirichlet' put the analytic value of the bottom of the mesh at the bottom of the padded mesh; PlanewaveXYPrimary refuses a float sigma_primary (len of a number), ignores it in 1D and keeps its primary field when frequency or simulation change (C158). getEHfields leaves places above the mesh uninitialised and ignores scaleValue when scaling (C159).
* Analytic spheres: GravityGradientSphereFreeSpace is wrong inside and returns no number at the centre; integer locations cut the mass to an integer; the size check uses ~n and never triggers; MagSphereAnaFunA called total lacks the uniform field outside; MagSphereFreeSpace is wrong inside; CongruousMagBC ignores cell volumes in the centre (C160). DC analytic: half-space potentials of buried electrodes are twice those of the whole space; DCAnalyticSphere ignores the depth of the source and doubles only total and secondary (C161).
* Analytic dipoles: TransientMagneticDipoleWholeSpace returns minus dh/dt, and an electric field of the wrong sign divided by r once too often; TransientElectricDipoleWholeSpace returns minus h (C162). MagneticDipoleWholeSpace returns the electric field with the wrong sign and divided by r once too often; ElectricDipoleWholeSpace divides by sigma instead of sigma + i w eps (C163).
* FDEMDipolarfields.py: H_from_ElectricDipoleWholeSpace has (1 - ikr) for (1 + ikr); kappa is 0 by default for E but 1 (twice the permeability) for its parts, J, H, B and A; XYZ.shape[0] > 1 & f.shape[0] > 1 is never true; A along Z raises UnboundLocalError (C164).
* FDEMcasing.py: getCasingEphiMagDipole multiplies with the array of the three permeabilities (ValueError unless one or three places); getCasingBrMagDipole and getCasingBzMagDipole use mu_0 instead of the permeability of the formation. waveform_utils.k is not a number at zero frequency (C165).
* MT_LayeredEarth: mu_r that is not a float is assigned to epsmodel and mumodel stays unbound; Cole-Cole parameters as arrays raise ValueError and as floats TypeError, a single chargeable layer gets conductivity zero; one thickness too many is accepted and every layer gets the thickness of the next; integer arrays of frequencies give results cut to integers (C166).
* toRecArray/fromRecArray: tables of real parts with tippers raise ValueError when read, the complex form drops data with one part only, second locations are lost, admittances become impedances (C167). rotate_data fails for one frequency with several locations and for incomplete tensors and does not rotate tippers; extract_data_info skips the names of admittances; resample_data always raises; convert3Dto1Dobject raises for all documented names (C168). EDIimporter drops minutes and seconds at 0 degrees, scales variances by the unit factor instead of its square, and needs both ZXY and ZYX (C169).
* timeIt: recursive calls give wrong single times, exceptions leave minus the time of the clock in the list (C170). read_GOCAD_ts never ends without TFACE or TRGL and takes the vertex number as coordinate after two blanks; download compares os.path.exists itself with True and always overwrites (C171).
* Drivers of UBC inversions: two blanks give an empty file name; activeCells and m0 call each other for ever when both are given by values; activeCells fails before mesh was used, staticCells and dynamicCells (gravity) fail before activeCells was used; m0 is never reduced to the active cells, mref is; the driver for magnetics compares the name of the file of active cells with FILE and never reads it (C172).
* IODC.IO: voltages of apparent_conductivity data are 1/G whatever the data; corezlength returns pad_rate_z; the depth of the core in 3D adds the range of y instead of z; electrodes with equal x (parallel lines) make dx zero; data of an earlier call are kept when none are given; 3D tables cannot be written to csv; read_ubc_dc2d_obs_file without a file of topography raises UnboundLocalError in the simple format (C173).
* generate_dcip_sources_line: dimension '3d' is taken as 2D, 'apparent_conductivity' always raises, 2D lines from right to left are laid away from the end; generate_dcip_survey: pole-dipole receivers start at a + b and end beyond the line, gradient arrays fail in 3D and repeat readings in 2D (C174). xy_2_lineID: pole sources raise IndexError, poles as zero dipoles are numbered one by one, a distant source behind the beginning is not a new line (C175).
* magnetics Simulation3DDifferential: a number within 1e-8 of mu_0 (0.8 percent) gives exactly no field; the data of several components are ordered by components, those of the integral simulation by locations; models of permeability with changes below 1e-8 are taken as equal by np.allclose and get the old fields; setting mu keeps the factorized system and the fields; storeJ=True raises in every second product (truth of an array, or the deleted attribute _Jmatrix, after which even fields raises). gravity Simulation3DDifferential.fields always raises, the divergence is applied to a potential in cells (C177).
* convolve_with_waveform: the derivative of RampOffWaveform is zero within epsilon of the start, so a static response is reduced by epsilon over the width (C178). pseudo_locations: on slopes the shift has the wrong sign, the location goes downhill and is above the ground for slopes of more than 38 degrees; a pole source in the middle of its receivers gives minus infinity (C179).
* C180: `create_random_model` of one cell (or of any array that smoothing makes constant) is 0/0; `create_ellipse_in_wholespace` in one dimension scales the interval by the cosine of the angle; the assertions of `get_indices_polygon` (`assert ~(...)`) never fail, since `~False` and `~True` are both true; without a kernel more than three dimensions end in an undefined name.
* C182: the discrete equations leave out the displacement current which the values at the ends contain.
* C183: `call_hooks` calls every attribute whose name contains `_` and the name, not only those that begin with it; hooks of `projection` cannot change the projected model; `Remember` runs before `doEndIteration` and so records the model, number and value from before the step, the last model is never recorded; `set_kwargs` leaves a part of refused arguments set; deprecations with `future_warn` and `error` never raise.
* C184: `BaseSrc._rxOrder` calls `getattr` without a name, so `get_receiver_indices` raises TypeError for every receiver; `Model.transform` is not updated after writes; slices of a `Model` keep the map of the whole.
* C185: `dask_linear_operator` with `store_sensitivities="disk"` returns the kernel of an existing file also when shape or chunks do not agree: the `else` belongs to the test for the file, so the kernel is neither computed nor written again.
* C186: `getJtJdiag` with dask keeps the diagonal of the first weights for all later ones (magnetics, gravity, resistivity, induced polarization); the one of gravity uses `self.nD`, which does not exist, if there are no weights; `dask_getJ` returns remembered sensitivities without looking at the model; blocks of columns are declared with equal sizes, which the last ones do not have.
* C187: `gettopoCC` raises ValueError if one column has no active cell; `drapeTopotoLoc` on tree meshes returns the centres of the nearest cells in place of the points; `gen_3d_survey_from_2d_lines` ignores `z0` and fails for "gradient".
* C188: `run_inversion` of spectral induced polarization calls `L2DataMisfit(survey)` without a simulation and always fails; `spectral_ip_mappings` takes the sum of indices for the number of active cells.
* C189: `GaussianMixtureWithPrior.fit_predict` returns the estimator, not labels; `converged_` is true if any initialization converged, although the parameters may be of one that did not; for scikit-learn before 1.6 it calls `self._validate_data(self, X, ...)`, which validates the estimator in place of the samples.
* C190: `_doEndIteration_ProjectedGradient` takes the binding set at the new point with the gradient of the old one, so that conjugate gradients may keep a component at a bound that it should leave.
* C191: `deprecate_class` on a class that derives from a deprecated class without an error recurses for ever; `deprecate_property` with `new_name` gives messages such as "active_cells.indActive has been removed"; `future_warn=True` takes precedence over `error=True`.
* C192: `GaussianMixtureWithNonlinearRelationships._estimate_gaussian_parameters` with `covariance_type="tied"` assigns `covariances[k]`, a row of the matrix: more units than properties are an IndexError, otherwise the rows come from different mappings and the matrix may have a negative diagonal; its `_m_step` divides by the number of samples and not by the volume.
* C193: `Haverkamp_k` and `Vangenuchten_k` take the saturated conductivity from `np.full_like(u, Ks)`: with integer heads it is truncated, so that saturated cells are impermeable.
* C194: `get_functions_of_type` adds the list of an inner combination as one entry: for `PGI(...) + CrossGradient(...)` the PGI directives take a list for the regularization and fail with AttributeError in the first iteration; two smallness terms in an inner combination pass the test for exactly one.
* Solvers (C195): Simulation3DDifferential (magnetics) overwrites the solver_opts given to it; TDEM initial fields, NSEM 2D boundary simulations, the Newton steps of Richards and differential gravity call the solver without solver_opts; Richards keeps the solver of its first use and NSEM 2D the one of its construction; solver=None is accepted by the setter and fails later; BaseInvProblem.startup announces is_symmetric=True but passes the options of the simulation, and does not look into nested combinations.
* SelfConsistentEffectiveMedium with random=False (C58): the tensors are multiplied entry by entry instead of as matrices, so off-diagonal entries of the depolarization tensors are ignored and tilted inclusions are treated as untilted ones with another shape; fractions of three cells are spread over the columns of one tensor.
* C196: in mixtures with relationships (pgi_utils.py 1393 and 1728) diagonal and spherical `precisions_init` are stored as `precisions_cholesky_` without a square root, so the first E step uses the squares of the precisions given (C196_violated_diag, C196_violated_spherical); `covariances_` is not set when precisions are given.
* C197: receivers accept `projField="j"` and predict current densities, but `_jDeriv_m` of the cell centred fields (fields.py 143-146) calls `MfRhoIDeriv` with the gradient of the direction in place of that of the potential and without the direction; every Jvec raises ValueError on any mesh with more faces than cells (C197_violated_current). The nodal fields have no `_eDeriv_u` or `_jDeriv_u`, and the NotImplementedError meant for them (fields.py 24-28, 46-49, 62-65) becomes a TypeError, because `knownFields.keys()[0]` is not allowed in Python 3 (C197_violated_nodal).
* C198: WennerSrcList with an integer spacing raises TypeError, since `elocs -= ...` (utils.py 35) subtracts floats from an integer array in place (C198_violated_integer).
* C199: plot_3d_pseudosection drops options of `cbar_opts` and `marker_opts` that have no default (static_utils.py 852-853, 867-868), for example the symbol of the markers (C199_violated_options); a plane given by three points on a line silently keeps no data (C199_violated_collinear).
* Not modelled, seen in passing: `depth_of_investigation_christiansen_2012` (base_1d.py 623-631) reads `survey._pred` and `survey.dobs`, which surveys do not have, and `get_threshold` calls `depth_of_investigation` and `get_JtJdiag`, which do not exist.
* C200: plot2Ddata takes `vmin` and `vmax` out of the dictionary `contourOpts` of the caller (plot_utils.py 116, 127), so that a second figure with the same dictionary has other limits (C200_violated_options); with `vec=True` and `level=True` it always raises TypeError, as `levels` and `zorder` are given twice (226; C200_violated_vector); with `ax` and `figname` it raises UnboundLocalError after drawing (266; C200_violated_figname).
* C201: plot_1d_layer_model raises IndexError for a halfspace (314; C201_violated_halfspace) and cuts off negative values, as the lower limit is 0.9 times the least (318; C201_violated_negative); plotLayer with `xlim` calls `ax.xlim`, which does not exist (385; C201_violated_xlim), and draws depths relative to the first one (C201_older).
* C202: values longer than the width of their printer are not cut, so the columns to their right move (code_utils.py 266; C202_violated_long).
* C203: plot_pseudosection with `plot_type="pcolor"` passes `**pcolor_opts` rather than its copy (static_utils.py 687): TypeError by default, as it is None (C203_violated_pcolor), and with a `norm`, which is then given twice (C203_violated_pcolor_norm). `plot_type` is checked in lower case but compared as given, so "Scatter" raises UnboundLocalError (581, 636; C203_violated_case). `cbar_opts` with `format`, `fraction`, `orientation`, `cax` or `ax` raises TypeError (734-742; C203_violated_bar).
* C204: in natural_source/utils/plot_utils.py one frequency without the receiver empties the whole curve of a station (844-847; C204_violated_missing); only the first receiver of a kind is read, so surveys with one receiver for each station raise ValueError for all but the first (849; C204_violated_second); error bars of phases use `real * real_uncert - imag * imag_uncert` in place of the parts crossed, and vanish for equal parts (735-738; C204_violated_phase); `frequency_map` always raises, as `get_sources_by_frequency` returns a list (797; C204_violated_map). Seen in passing, not modelled: tippers have no `locations_e` (851) and apparent conductivities no `orientation` (842), so such surveys raise AttributeError; the viewer calls `data_dict.keys()[0]` and `iterkeys`, which Python 3 does not have.
* Read in passing, not modelled: `plotPsudoSectNSimpedance` (simpeg/electromagnetics/natural_source/utils/plot_data_types.py) indexes `dict.values()` and `dict.keys()`, a TypeError in Python 3 for every input; `plotImpAppRes` (natural_source/utils/data_utils.py 440-453) formats an empty list with `{:s}` by default, also a TypeError.
* C205: `t_wave` and `I_wave` of `ArbitraryDiscrete` each refuse an array of another length than the other (waveforms.py 381-384, 401-404), so no sequence of assignments gives a waveform of another number of points (C205_violated_resize); `times` and `currents` of `PiecewiseLinearWaveform` are neither compared nor sorted when assigned (sources.py 856-874), and `has_initial_fields` keeps its value (C205_violated_piecewise, C205_violated_initial).
* C206: the check of engine and sensitivity path runs in the constructor only (potential_fields/base.py 107), so assigning `engine`, `store_sensitivities` and `sensitivity_path` afterwards gets past it (C206_violated_assignments).
* C207: with `gradient_type="total"` (the default) `SparseSmoothness.update_weights` averages gradients to cells before taking absolute values (sparse.py 653-655, as documented in its formula), so gradients of opposite sign on the two faces of a cell cancel: a model that alternates from cell to cell gets the weights of a constant model (C207_violated_cancel). Cells at the boundary of the active cells have one face only but the average still divides by two, so a uniform gradient counts three quarters at the first face (C207_violated_boundary).

{"id": "C01", "title": "Survey slices partition the data vector", "statement": "For a survey whose sources are pairwise distinct and whose receivers are pairwise distinct within each source, get_all_slices() assigns to every (source, receiver) pair a half-open interval of length receiver.nD; the intervals are pairwise disjoint, appear in source-major order, and their union is exactly [0, survey.nD). get_slice(source, receiver) returns the same interval as get_all_slices()[source, receiver], and raises KeyError exactly when the pair is not in the survey.", "quantifier": "all source lists, all receiver lists (receivers may be shared between sources), all receiver sizes including 0, all query pairs", "why_tests_cant": "tests use a handful of surveys; disjointness/coverage must hold for every combination of counts and for repeated receivers", "anchors": ["simpeg/survey.py: BaseSurvey.get_slice, BaseSurvey.get_all_slices, BaseSurvey.nD, BaseSurvey.vnD, BaseSrc.vnD"]}
{"id": "C02", "title": "Per-receiver data access is isolated and round-trips", "statement": "After any sequence of assignments data[src, rx] = values, reading data[src, rx] returns the values of the most recent assignment made to that pair (or the initial block of dobs if there was none); an assignment to one pair never changes what is read at another pair; a single value is broadcast over the block and assignments of any other wrong length raise and leave all data unchanged.", "quantifier": "all surveys, all histories of assignments and reads, all values", "why_tests_cant": "the interaction of overlapping receivers, offsets and update order is unbounded", "anchors": ["simpeg/data.py: Data.__setitem__, Data.__getitem__, Data.index_dictionary", "simpeg/survey.py: BaseSurvey.get_slice"]}
{"id": "C03", "title": "Predicted data vector is completely and uniquely assembled", "statement": "dpred returns a vector of length survey.nD in which the entry at position offset(src, rx)+i equals entry i of rx.eval(src, ...): no placeholder NaN survives, no entry is overwritten by another receiver, and the order is source-major.", "quantifier": "all surveys, all fields, all receiver evaluation functions returning nD values", "why_tests_cant": "ordering and overwriting errors depend on the combination of receiver counts, which tests only sample", "anchors": ["simpeg/simulation.py: BaseSimulation.dpred, BaseTimeSimulation.dpred", "simpeg/survey.py: BaseSurvey.get_all_slices"]}
{"id": "C04", "title": "Number of data always matches the source list", "statement": "survey.nD equals the sum of nD over all receivers of all sources currently in source_list, after any history of reads and source_list assignments.", "quantifier": "all histories of source_list assignments interleaved with reads of nD/vnD", "why_tests_cant": "requires quantifying over histories because vnD is cached on the survey object", "anchors": ["simpeg/survey.py: BaseSurvey.vnD, BaseSurvey.nD, BaseSurvey.source_list"]}
{"id": "C05", "title": "Field storage: last write wins, writes are isolated", "statement": "For a Fields container, after any history of f[sources, name] = value assignments, f[sources, name] returns for each source column exactly the most recently stored column, columns of other sources and other field names are unaffected, and never-written columns of a stored field name read as zero while names stored for no source raise; source index queries are injective on distinct sources and cover [0, sum of fields per source).", "quantifier": "all field-name sets, source lists, column widths and assignment histories", "why_tests_cant": "state-dependent aliasing between columns is a property of histories", "anchors": ["simpeg/fields.py: Fields.__setitem__, Fields.__getitem__, Fields._setField, Fields._getField, Fields._srcIndex", "simpeg/survey.py: BaseSurvey.get_source_indices, BaseSurvey._sourceOrder"]}
{"id": "C06", "title": "Receiver projection caching is transparent", "statement": "Whatever sequence of projection requests was made before, the projection matrix returned by rx.getP(mesh, grid) is the interpolation matrix for the requested mesh and grid (for time receivers: for the requested mesh, time mesh and field kind). This stays true when the receiver is moved (its locations reassigned) between requests.", "quantifier": "all sequences of getP requests over arbitrary meshes, time meshes and grids", "why_tests_cant": "cache-key completeness depends on the history of requests", "anchors": ["simpeg/survey.py: BaseRx.getP, BaseTimeRx.getP"]}
{"id": "C07", "title": "Uncertainty state machine", "statement": "For every history of assignments to relative_error, noise_floor and standard_deviation, data.standard_deviation[i] = sqrt((relative_error[i]*|dobs[i]|)^2 + noise_floor[i]^2), which is >= noise_floor[i] and >= relative_error[i]*|dobs[i]|; assigning standard_deviation makes it read back exactly; negative or wrongly-shaped assignments raise and leave the uncertainties unchanged.", "quantifier": "all data vectors, all histories of uncertainty assignments (scalars and vectors, valid or invalid)", "why_tests_cant": "history-dependent: which of the three attributes was set last decides the value", "anchors": ["simpeg/data.py: Data.relative_error, Data.noise_floor, Data.standard_deviation"]}
{"id": "C08", "title": "Objective-function algebra evaluates to the algebraic value", "statement": "Any objective function built from base objective functions with +, scalar * and scalar / (in any order and nesting) evaluates at every model to the same linear combination of the base values.", "quantifier": "all expression trees, all multipliers (including 0), all base functions and models", "why_tests_cant": "expression trees are unbounded; flattening, nesting and zero-skipping interact", "anchors": ["simpeg/objective_function.py: BaseObjectiveFunction.__add__, __mul__, __truediv__, ComboObjectiveFunction.__call__"]}
{"id": "C09", "title": "Objective-function algebra differentiates correctly", "statement": "If every base objective function returns its true gradient and Hessian product then so does every expression built from them: deriv is the gradient of the expression's value and deriv2 the corresponding linear combination of Hessians.", "quantifier": "all expression trees, multipliers, differentiable base functions, models", "why_tests_cant": "finite-difference tests check single points of single trees", "anchors": ["simpeg/objective_function.py: ComboObjectiveFunction.deriv, ComboObjectiveFunction.deriv2"]}
{"id": "C10", "title": "Combo objective well-formedness is an invariant", "statement": "A ComboObjectiveFunction always has as many multipliers as objective functions and all of its objective functions agree on the number of parameters (or leave it free); every expression, constructor call or multiplier assignment violating this raises (and leaves the object unchanged), and no other one does.", "quantifier": "all constructor arguments, all histories of multiplier assignments and additions", "why_tests_cant": "invariant over unbounded operation histories", "anchors": ["simpeg/objective_function.py: ComboObjectiveFunction.__init__, ComboObjectiveFunction.multipliers, _validate_multiplier"]}
{"id": "C11", "title": "L2 objective: value, gradient and Hessian agree", "statement": "For an L2 objective with residual map f and weight W, the value is ||W f(m)||^2, deriv is its exact gradient, and deriv2 is symmetric positive semidefinite (Gauss-Newton), exactly the Hessian when f is linear.", "quantifier": "all dimensions, differentiable residual maps, weight matrices, models", "why_tests_cant": "tests sample points; factor-of-two or transposition errors can hide on symmetric data", "anchors": ["simpeg/objective_function.py: L2ObjectiveFunction.__call__, deriv, deriv2"]}
{"id": "C12", "title": "Data misfit: value, gradient and Gauss-Newton product", "statement": "For the L2 data misfit with real data, phi_d(m) = sum_i |(W (F(m)-dobs))_i|^2 with default W = diag(1/std); deriv(m) is its exact gradient; deriv2(m, v) is the Gauss-Newton product 2 J^T W^T W J v, so v . deriv2(m, v) >= 0 for every v.", "quantifier": "all differentiable forward maps, data, models, weight matrices", "why_tests_cant": "the Hessian product is only right for symmetric weights; no finite set of diagonal-weight tests reveals it", "anchors": ["simpeg/data_misfit.py: L2DataMisfit.__call__, deriv, deriv2, BaseDataMisfit.W, BaseDataMisfit.residual"]}
{"id": "C13", "title": "Data misfit weights follow the data uncertainties", "statement": "The weights used by the data misfit are the reciprocals of the data's current standard deviations (unless W was assigned explicitly), for every history of uncertainty updates and evaluations; zero or negative standard deviation raises instead of yielding an infinite weight.", "quantifier": "all histories of uncertainty assignments, W assignments and evaluations", "why_tests_cant": "depends on the interleaving of evaluation and update", "anchors": ["simpeg/data_misfit.py: BaseDataMisfit.W", "simpeg/data.py: Data.standard_deviation"]}
{"id": "C14", "title": "Inverse problem objective is the trade-off sum", "statement": "evalFunction(m) returns phi_d(m) + beta*phi_m(m), with gradient equal to the gradient of that sum and Hessian operator H v = H_d v + beta H_m v, and the tuple of outputs contains exactly the requested items in the order (phi, g, H).", "quantifier": "all objective functions, beta >= 0, models, flags", "why_tests_cant": "combination of flags and expression structure", "anchors": ["simpeg/inverse_problem.py: BaseInvProblem.evalFunction"]}
{"id": "C15", "title": "Map composition obeys the chain rule", "statement": "For every composition of maps, applying the composite equals applying the maps right to left, and deriv(m) of the composite is the exact Frechet derivative of that application; deriv(m, v) = deriv(m) @ v.", "quantifier": "all composition trees (nested), all differentiable component maps, models, directions", "why_tests_cant": "compositions are unbounded and order/point of evaluation errors are invisible for commuting or linear maps", "anchors": ["simpeg/maps/_base.py: ComboMap._transform, ComboMap.deriv, IdentityMap.__mul__"]}
{"id": "C16", "title": "Elementary property maps have exact derivatives and inverses", "statement": "ExpMap, LogMap, ReciprocalMap, ChiMap, MuRelative, Weighting and LogisticSigmoidMap: deriv is the exact derivative on the documented domain and inverse(map(m)) = m.", "quantifier": "all models in the domain of the map (positive for logarithms, nonzero for reciprocals), all parameter values", "why_tests_cant": "pointwise tests cannot cover the parameter/domain space", "anchors": ["simpeg/maps/_property_maps.py: ExpMap, ReciprocalMap, LogMap, LogisticSigmoidMap, ChiMap, MuRelative, Weighting"]}
{"id": "C17", "title": "is_linear is sound", "statement": "If a map reports is_linear = True then map(a*x + b*y) = a*map(x) + b*map(y) for every x, y, a, b.", "quantifier": "all maps and compositions, all vectors and scalars", "why_tests_cant": "universally quantified over maps; an affine map passes derivative tests", "anchors": ["simpeg/maps/_base.py: IdentityMap.is_linear, ComboMap.is_linear, LinearMap.is_linear, SumMap.is_linear", "simpeg/maps/_injection.py: InjectActiveCells.is_linear", "simpeg/maps/_property_maps.py: ChiMap, MuRelative"]}
{"id": "C18", "title": "Accepted compositions are applicable", "statement": "If constructing a composed map succeeds, applying it to a vector of length nP never fails with a dimension mismatch and returns a vector of length shape[0]; an incompatible pair is rejected at construction.", "quantifier": "all lists of maps with fixed or free ('*') dimensions", "why_tests_cant": "all combinations of free and fixed dimensions", "anchors": ["simpeg/maps/_base.py: ComboMap.__init__, IdentityMap.__mul__, ComboMap.shape, ComboMap.nP"]}
{"id": "C19", "title": "Wires partition the model vector", "statement": "The projections of a Wires object select pairwise disjoint, contiguous, order-preserving blocks which together are exactly the whole model; concatenating the wire outputs returns the model.", "quantifier": "all lists of wire names and sizes, all models", "why_tests_cant": "unbounded number/size of blocks", "anchors": ["simpeg/maps/_base.py: Wires, Projection"]}
{"id": "C20", "title": "Active-cell injection", "statement": "InjectActiveCells(m) has value m at active cells (in order) and value_inactive at every inactive cell; inverse(map(m)) = m; deriv is the 0/1 injection matrix whose transpose restricts to active cells (adjointness).", "quantifier": "all meshes sizes, masks, models, inactive values", "why_tests_cant": "all masks", "anchors": ["simpeg/maps/_injection.py: InjectActiveCells"]}
{"id": "C21", "title": "A physical property has exactly one source of truth", "statement": "After any history of assignments to a pair of reciprocal physical properties and their maps, a non-None assignment leaves that item as the only one set; reading either property returns v and 1/v, so their product is 1 wherever defined; with nothing set, reading raises instead of returning stale values.", "quantifier": "all histories of assignments to (prop, propMap, recip, recipMap)", "why_tests_cant": "history-dependent state machine", "anchors": ["simpeg/props.py: PhysicalProperty, Mapping, Reciprocal"]}
{"id": "C22", "title": "Model-dependent caches are refreshed when the model changes", "statement": "After sim.model = m, every quantity derived from the model reflects m: caches built for an earlier model are discarded whenever the model value changed.", "quantifier": "all histories of model assignments and cache fills", "why_tests_cant": "staleness accumulates over histories; each single step may look close", "anchors": ["simpeg/props.py: HasModel.model, HasModel._delete_on_model_update"]}
{"id": "C23", "title": "Stopping decision", "statement": "check_stoppers stops exactly when all 'optimal' conditions hold simultaneously or at least one 'critical' condition holds; with no stoppers it never stops; stopping is monotone in each condition.", "quantifier": "all lists of stoppers and truth values", "why_tests_cant": "all combinations", "anchors": ["simpeg/utils/code_utils.py: check_stoppers", "simpeg/optimization.py: Minimize.stoppingCriteria, StoppingCriteria"]}
{"id": "C24", "title": "Line search postcondition and termination", "statement": "modifySearchDirection terminates after at most maxIterLS backtracking steps; when it reports success the returned point satisfies the sufficient-decrease inequality f(xt) <= f(xc) + LSreduction * g.(xt - xc) (projected step), with xt = projection(xc + LSshorten^k p).", "quantifier": "all objective functions, directions, parameters, projections", "why_tests_cant": "arbitrary black-box objective", "anchors": ["simpeg/optimization.py: Minimize.modifySearchDirection, StoppingCriteria.armijoGoldstein, StoppingCriteria.iterationLS"]}
{"id": "C25", "title": "Minimisation loop: bounded iterations and monotone objective", "statement": "minimize performs at most maxIter iterations, and whenever every search direction is a descent direction the sequence of accepted objective values is non-increasing; on line-search failure the returned model is the last accepted one.", "quantifier": "all objectives, directions, starting points, tolerances", "why_tests_cant": "unbounded runs with arbitrary black-box objective", "anchors": ["simpeg/optimization.py: Minimize.minimize, doEndIteration, modifySearchDirectionBreak"]}
{"id": "C26", "title": "Bound constraints hold at every iterate", "statement": "With lower <= upper, every point the bounded optimisers evaluate as a trial and every accepted iterate satisfies lower <= x <= upper componentwise, including the projected starting point; projection is idempotent and does not move feasible points.", "quantifier": "all bounds, starting points, directions, numbers of iterations", "why_tests_cant": "invariant over unbounded runs", "anchors": ["simpeg/optimization.py: Bounded.projection, Bounded.activeSet, Bounded.inactiveSet, Bounded.bindingSet, Minimize.startup, Minimize.modifySearchDirection"]}
{"id": "C27", "title": "BFGS directions are descent directions", "statement": "For every history of iterates, the BFGS search direction is a descent direction (g.p < 0 for g != 0), because updates with non-positive curvature are discarded and the implicit inverse Hessian remains symmetric positive definite.", "quantifier": "all histories of iterates and gradients, all memory sizes of at least one, all symmetric positive definite initial operators", "why_tests_cant": "positivity depends on whole history", "anchors": ["simpeg/optimization.py: BFGS.bfgs, BFGS.bfgsrec, BFGS._doEndIteration_BFGS, BFGS.findSearchDirection"]}
{"id": "C28", "title": "Search-direction scaling limits the step", "statement": "scaleSearchDirection returns a non-negative multiple of the search direction whose largest absolute component is at most maxStep.", "quantifier": "all directions, all maxStep", "why_tests_cant": "sign patterns of the direction", "anchors": ["simpeg/optimization.py: Minimize.scaleSearchDirection"]}
{"id": "C29", "title": "Meta-simulation data layout and adjointness", "statement": "A MetaSimulation's dpred is the concatenation of the member simulations' predictions at their mapped models; Jvec and Jtvec are mutually adjoint: <Jvec(v), w> = <v, Jtvec(w)>, given adjoint members; Jvec is the derivative of dpred.", "quantifier": "all numbers of simulations, data sizes (including 0), mappings, vectors", "why_tests_cant": "offset/transposition errors depend on arbitrary size combinations", "anchors": ["simpeg/meta/simulation.py: MetaSimulation.dpred, Jvec, Jtvec, _data_offsets"]}
{"id": "C30", "title": "Sum and repeated meta-simulations", "statement": "SumMetaSimulation predicts the sum of member predictions with adjoint Jvec/Jtvec; RepeatedSimulation with mappings m_1..m_n gives the same results as a MetaSimulation over n independent copies of the simulation.", "quantifier": "all member lists, mappings, vectors", "why_tests_cant": "shared mutable simulation: aliasing across mappings", "anchors": ["simpeg/meta/simulation.py: SumMetaSimulation, RepeatedSimulation"]}
{"id": "C31", "title": "getJtJdiag is the diagonal of J^T W^T W J", "statement": "getJtJdiag(m, W) equals the diagonal of J(m)^T W^T W J(m) for the requested W and model.", "quantifier": "all weights, models and call histories", "why_tests_cant": "result is cached, so correctness depends on call history", "anchors": ["simpeg/meta/simulation.py: MetaSimulation.getJtJdiag"]}
{"id": "C32", "title": "Distributing simulations over processes", "statement": "For any number of simulations and processes, the chunks given to the worker processes are contiguous, in order, cover every simulation exactly once, none is empty, and sizes differ by at most one.", "quantifier": "all n_sim, n_processes >= 1", "why_tests_cant": "arithmetic over all pairs", "anchors": ["simpeg/meta/multiprocessing.py: MultiprocessingMetaSimulation.__init__, MultiprocessingRepeatedSimulation.__init__"]}
{"id": "C33", "title": "Parallel meta-simulation equals the serial one", "statement": "For every interleaving of the worker processes, the results of fields/dpred/Jvec/Jtvec collected from the queues are those of the serial simulation: the k-th reply received from a worker answers the k-th query sent to it.", "quantifier": "all schedules, all request histories", "why_tests_cant": "schedules cannot be enumerated by tests", "anchors": ["simpeg/meta/multiprocessing.py: _SimulationProcess.run, MultiprocessingMetaSimulation.dpred, Jvec, Jtvec"]}
{"id": "C34", "title": "Beta schedule has the documented closed form", "statement": "With BetaSchedule(coolingFactor=c, coolingRate=r), after k completed iterations (k < maxIter) beta = beta0 / c^(floor(k/r)); beta stays positive and is non-increasing for c >= 1.", "quantifier": "all c, r, k, beta0", "why_tests_cant": "induction over iterations", "anchors": ["simpeg/directives/_directives.py: BetaSchedule.endIter"]}
{"id": "C35", "title": "IRLS cooling adjustment moves misfit toward target", "statement": "UpdateIRLS.adjust_cooling_schedule leaves beta unchanged when the misfit is within tolerance, decreases beta (by a factor between 8/7 and 8/3) when the misfit is above target, and increases it (by a factor of at least 1.5 for misfit below target) when below.", "quantifier": "all misfits, targets, tolerances", "why_tests_cant": "inequalities over reals", "anchors": ["simpeg/directives/_regularization.py: UpdateIRLS.adjust_cooling_schedule"]}
{"id": "C36", "title": "IRLS terminates within its iteration budget", "statement": "Once IRLS starts, at most max_irls_iterations IRLS iterations are executed before the inversion is told to stop, for any misfit trajectory; the iteration counter increases by exactly one per IRLS update and never exceeds the limit.", "quantifier": "all misfit/model-norm trajectories", "why_tests_cant": "arbitrary trajectories", "anchors": ["simpeg/directives/_regularization.py: UpdateIRLS.endIter, stopping_criteria, start_irls"]}
{"id": "C37", "title": "A stop requested by any directive is honoured", "statement": "If a directive (e.g. TargetMisfit) requests termination at the end of an iteration, the optimisation performs no further iteration, regardless of the other directives and their order.", "quantifier": "all directive lists, orders and misfit trajectories", "why_tests_cant": "interaction of directives via shared flag", "anchors": ["simpeg/directives/_directives.py: TargetMisfit.endIter, DirectiveList.call", "simpeg/directives/_regularization.py: UpdateIRLS.endIter"]}
{"id": "C38", "title": "Directive life cycle", "statement": "During inversion.run, every directive receives initialize exactly once before the first iteration, endIter exactly once per completed iteration in list order, and finish exactly once at the end.", "quantifier": "all directive lists and numbers of iterations", "why_tests_cant": "traces are unbounded", "anchors": ["simpeg/inversion.py: BaseInversion.run", "simpeg/directives/_directives.py: DirectiveList.call", "simpeg/optimization.py: Minimize.minimize, doEndIteration"]}
{"id": "C39", "title": "Regularization weights follow the registered weights", "statement": "For every history of set_weights/remove_weights calls and evaluations, the diagonal of W^T W used by the regularization is the product of the currently registered weights; removing an unknown key raises KeyError and changes nothing.", "quantifier": "all histories of weight operations (valid and invalid) and evaluations", "why_tests_cant": "cache coherence over histories with failing calls", "anchors": ["simpeg/regularization/base.py: BaseRegularization.set_weights, remove_weights, W"]}
{"id": "C40", "title": "Regularization value, gradient and Hessian", "statement": "Smallness and smoothness regularizations are sums of squares >= 0, vanish when the model equals the reference model, deriv is their exact gradient, and deriv2 is symmetric positive semidefinite and exact for linear mappings.", "quantifier": "all models, reference models, nonnegative weights, linear mappings, gradient operators; units other than radian", "why_tests_cant": "universally quantified over vectors/matrices", "anchors": ["simpeg/regularization/base.py: BaseRegularization.__call__, deriv, deriv2, Smallness.f_m, SmoothnessFirstOrder.f_m"]}
{"id": "C41", "title": "Sparse-norm IRLS weights", "statement": "get_lp_weights returns strictly positive weights for every threshold > 0 and norm in [0,2]; with norm 2 the unscaled weights are exactly 1 (L2 measure recovered); weights are non-increasing in |f| ; with scaling, the product |w*f| never exceeds max|f|.", "quantifier": "all residual vectors, norms in [0,2], thresholds > 0", "why_tests_cant": "real-analytic inequality", "anchors": ["simpeg/regularization/sparse.py: BaseSparse.get_lp_weights, BaseSparse.norm"]}
{"id": "C42", "title": "Sparse norms assignment is atomic", "statement": "Assigning norms of a Sparse regularization either updates all component norms, or raises and leaves every component's norm as before.", "quantifier": "all lists of norms (valid and invalid), all components", "why_tests_cant": "partial-failure interleavings", "anchors": ["simpeg/regularization/sparse.py: Sparse.norms"]}
{"id": "C43", "title": "Length scales and alphas are consistent", "statement": "Setting length_scale_x (>= 0) makes alpha_x = (length_scale_x * base_length)^2 and reading length_scale_x returns it; negative alphas raise ValueError and leave the state unchanged; the multipliers used in the objective are always the current alphas.", "quantifier": "all histories of alpha and length scale assignments", "why_tests_cant": "history-dependent", "anchors": ["simpeg/regularization/base.py: WeightedLeastSquares.alpha_s, alpha_x, length_scale_x, multipliers"]}
{"id": "C44", "title": "Angle wrapping", "statement": "coterminal(theta) is in [-pi, pi), is congruent to theta modulo 2*pi, is idempotent, and fixes angles already in range.", "quantifier": "all real angles", "why_tests_cant": "continuum", "anchors": ["simpeg/utils/mat_utils.py: coterminal"]}
{"id": "C45", "title": "Probing estimates exact diagonals", "statement": "With the probing approach, estimate_diagonal(A, n, k) returns the exact diagonal whenever A_ij = 0 for all i != j with i = j mod k; in particular k = n is always exact and k > bandwidth is exact for banded matrices.", "quantifier": "all matrices, n, k >= 1", "why_tests_cant": "all sparsity patterns", "anchors": ["simpeg/utils/mat_utils.py: estimate_diagonal"]}
{"id": "C46", "title": "Effective-medium bounds are ordered", "statement": "wiener_bounds(phi) returns lower <= upper, and the Hashin-Shtrikman bounds lie between the Wiener bounds, for all phase fractions in [0,1] and positive conductivities.", "quantifier": "all fractions and conductivities", "why_tests_cant": "real inequality", "anchors": ["simpeg/maps/_property_maps.py: SelfConsistentEffectiveMedium.wiener_bounds, hashin_shtrikman_bounds"]}
{"id": "C47", "title": "Time-stepping sensitivities are adjoint", "statement": "For the Richards simulation, Jvec computes the forward substitution of the block lower-bidiagonal system and Jtvec the corresponding backward substitution; <Jvec(v), w> = <v, Jtvec(w)> for every number of time steps.", "quantifier": "all numbers of time steps, cell counts, block matrices with solvable diagonal blocks, vectors", "why_tests_cant": "induction over time steps", "anchors": ["simpeg/flow/richards/simulation.py: SimulationNDCellCentered.Jvec, Jtvec, Jfull"]}
{"id": "C48", "title": "Block selection", "statement": "get_indices_block(p0, p1, centers) returns exactly the sorted indices of cell centers in the closed box spanned by the two corners, independent of the order of the corners; add_block changes exactly those cells and does not mutate its input.", "quantifier": "all corner pairs of the dimension of the mesh, centers, dimensions", "why_tests_cant": "all corner orderings/positions", "anchors": ["simpeg/utils/model_builder.py: get_indices_block, add_block"]}
{"id": "C49", "title": "Input validators accept exactly the documented set", "statement": "validate_integer, validate_float, validate_string, validate_active_indices and the like return a value satisfying the declared constraint or raise; a valid value is accepted and returned unchanged (up to the documented conversion).", "quantifier": "all inputs, all bounds", "why_tests_cant": "all boundary configurations", "anchors": ["simpeg/utils/code_utils.py: validate_integer, validate_float, validate_string, validate_active_indices"]}
{"id": "C50", "title": "Newton root finder", "statement": "NewtonRoot.root performs at most maxIter Newton steps, and with line search enabled the residual norm decreases at each accepted step or an exception-free best effort is returned.", "quantifier": "all residual functions and Jacobians, all tolerances", "why_tests_cant": "arbitrary black-box functions", "anchors": ["simpeg/optimization.py: NewtonRoot.root"]}
{"id": "C51", "title": "A sum of maps is the sum of its members", "statement": "Applying a SumMap to a model gives the sum of the members' outputs, its derivative times a vector is the sum of the members' derivatives times that vector, and neither evaluation changes its argument.", "quantifier": "all lists of member maps, all models and directions", "why_tests_cant": "aliasing between the accumulator and the input only shows for particular member orders", "anchors": ["simpeg/maps/_base.py: SumMap._transform, SumMap.deriv, SumMap.__init__"]}
{"id": "C52", "title": "Surjection maps copy the right model value to every cell", "statement": "SurjectFull gives all cells the single value; SurjectVertical1D gives every cell of layer k the value k; Surject2Dto3D gives cell (i,j,k) the value at the two coordinates other than the normal; SurjectUnits gives a cell of exactly one unit that unit's value and an uncovered cell zero. The derivative of each is the map's own (exact) matrix.", "quantifier": "all mesh sizes, normals, unit masks and models", "why_tests_cant": "index arithmetic over all mesh shapes; wrong stride errors vanish on cubic meshes", "anchors": ["simpeg/maps/_surjection.py: SurjectFull, SurjectVertical1D, Surject2Dto3D, SurjectUnits"]}
{"id": "C53", "title": "Model assignment reaches nested modelers, or changes nothing", "statement": "Assigning a model to an object with nested modelers (a simulation whose physical properties are objects with their own model) hands the same model to every nested modeler; if any of them rejects it, the assignment raises, the object keeps its previous model and every nested modeler is given its previous model again.", "quantifier": "all trees of nested modelers, all validation outcomes, all previous models that fit the present maps", "why_tests_cant": "The rollback depends on which nested modeler rejects and in which order they are visited; tests cover one level and one order", "anchors": ["simpeg/props.py: HasModel.model, NestedModeler", "simpeg/flow/richards/simulation.py: SimulationNDCellCentered.hydraulic_conductivity, water_retention"]}
{"id": "C54", "title": "Projected Gauss-Newton search direction", "statement": "The search direction of ProjectedGNCG is found in at most cg_maxiter conjugate gradient iterations, does not move cells that are held at a bound, moves the other active cells along the negative gradient, and is a descent direction whenever the free part of the gradient exceeds the tolerance.", "quantifier": "all symmetric positive definite Hessians, gradients, active and binding sets, tolerances and iteration limits, diagonal preconditioners", "why_tests_cant": "Descent rests on conjugacy of all previous directions at every inner iteration, for every problem size", "anchors": ["simpeg/optimization.py: ProjectedGNCG.findSearchDirection", "simpeg/optimization.py: Bounded.activeSet, Bounded.bindingSet"]}
{"id": "C55", "title": "Parallel sum simulation equals the serial sum", "statement": "MultiprocessingSumMetaSimulation predicts, for every number of processes, the sum of the member predictions, and its Jvec and Jtvec are those of the serial SumMetaSimulation.", "quantifier": "all member lists, all numbers of processes, all models and vectors", "why_tests_cant": "The tests use as many processes as simulations; the way simulations are grouped depends on both numbers", "anchors": ["simpeg/meta/multiprocessing.py: MultiprocessingSumMetaSimulation.dpred, Jvec, Jtvec", "simpeg/meta/multiprocessing.py: MultiprocessingMetaSimulation.__init__"]}
{"id": "C56", "title": "An inversion with UpdateIRLS can be run again", "statement": "Running an inversion a second time with the same UpdateIRLS directive and regularization uses the norms and the cooling factor that were configured and begins with least squares weights, as the first run did.", "quantifier": "all first runs, whether or not they reached the IRLS stage, all norms and cooling factors", "why_tests_cant": "Tests run every inversion once on fresh objects; the question is about every possible history of the first run", "anchors": ["simpeg/directives/_regularization.py: UpdateIRLS.initialize, start_irls", "simpeg/inversion.py: BaseInversion.run"]}
{"id": "C57", "title": "Layered models put every value into its layer", "statement": "create_layers_model gives every cell the value of the layer that contains its centre, for layer tops in any order; create_2_layer_model gives top_value to the cells above the interface and bottom_value to those below, in every dimension it accepts.", "quantifier": "all sets of cell centres, all lists of tops and values in any order, all depths", "why_tests_cant": "Tests use one mesh with tops already in descending order; the claim is about every order and every position of the cells", "anchors": ["simpeg/utils/model_builder.py: create_layers_model", "simpeg/utils/model_builder.py: create_2_layer_model"]}
{"id": "C58", "title": "Effective medium map solves the balance condition", "statement": "SelfConsistentEffectiveMedium returns for every phase fraction the conductivity at which the two phases balance, between the two phase conductivities; the result depends on the fraction and the settings only, inverse recovers the fraction, and deriv is the derivative.", "quantifier": "all positive conductivities and aspect ratios, all fractions in [0, 1], all histories of calls and setting changes, any number of iterations", "why_tests_cant": "Tests compare single values against tables or finite differences at sampled fractions; uniqueness, bounds and independence of history concern all of them", "anchors": ["simpeg/maps/_property_maps.py: SelfConsistentEffectiveMedium.getQ, getR, getdR", "simpeg/maps/_property_maps.py: SelfConsistentEffectiveMedium._sc2phaseEMTSpheroidstransform", "simpeg/maps/_property_maps.py: SelfConsistentEffectiveMedium.inverse, deriv"]}
{"id": "C59", "title": "Coordinate conversions are inverse to each other", "statement": "cartesian2spherical and spherical2cartesian (and the amplitude/azimuth/dip conversions) are inverse to each other on their ranges, and the vector of a dip and azimuth has length one and points the documented way.", "quantifier": "all vectors and all angles in the principal ranges", "why_tests_cant": "Only sampled vectors are converted in tests; quadrants and boundary angles are the usual failures", "anchors": ["simpeg/utils/mat_utils.py: cartesian2spherical, spherical2cartesian, dip_azimuth2cartesian"]}
{"id": "C60", "title": "Richards sensitivities are the derivatives of the predicted data", "statement": "For the mixed formulation of the Richards equation, the product Jvec(m, v) is the derivative of the predicted pressure and saturation data in the direction v, and the Newton matrix used to advance a time step is the derivative of the residual of that step. The same should hold for the head formulation.", "quantifier": "every mesh (operator matrices), boundary condition, pair of water retention and conductivity curves with exact derivatives, model, list of time steps and list of receivers for which the heads solve the time-step equations", "why_tests_cant": "Derivative tests check a few random models on one mesh with a few time steps up to a convergence rate; the statement is an identity for all models, numbers of steps and curves.", "anchors": ["simpeg/flow/richards/simulation.py: SimulationNDCellCentered.getResidual, diagsJacobian, Jvec", "simpeg/flow/richards/receivers.py: Pressure.deriv, Saturation.deriv", "simpeg/flow/richards/survey.py: Survey.deriv"]}
{"id": "C61", "title": "Empirical hydraulic curves return exact derivatives", "statement": "For the Haverkamp and Van Genuchten curves, derivU and derivM are the derivatives of the returned water content or conductivity with respect to the pressure head and with respect to every parameter (through its map).", "quantifier": "every cell, nonzero pressure head and parameter values in the admissible range (alpha, A > 0; n > 1), and every set of maps from the model to the parameters", "why_tests_cant": "The closed forms have many powers and logarithms; tests check a handful of random parameter values numerically.", "anchors": ["simpeg/flow/richards/empirical.py: Haverkamp_theta, Haverkamp_k, Vangenuchten_theta, Vangenuchten_k"]}
{"id": "C62", "title": "Empirical hydraulic curves stay in their physical range", "statement": "The water content lies between the residual and the saturated content, the conductivity is positive and at most the saturated conductivity, both take the saturated value at nonnegative heads, and the Haverkamp curves never decrease with the head.", "quantifier": "every pressure head and admissible parameter values (alpha, A, Ks > 0, n > 1, I >= 0, residual <= saturated content)", "why_tests_cant": "A range holds for a continuum of heads and parameters; tests sample.", "anchors": ["simpeg/flow/richards/empirical.py: Haverkamp_theta.__call__, Haverkamp_k.__call__, Vangenuchten_theta.__call__, Vangenuchten_k.__call__"]}
{"id": "C63", "title": "DC sensitivities are the derivatives of the predicted data", "statement": "In the static resistivity simulations Jvec(m, v) equals the derivative of the predicted data at m applied to v, receiver by receiver, in data order, for nodal and cell centred discretizations and every boundary condition.", "quantifier": "every mesh size, mesh operator, invertible system, differentiable property map, model, direction, source and receiver", "why_tests_cant": "Tests compare with finite differences at a few random models on a few meshes; they never reached the wrong combination (single potential electrodes with Neumann boundaries).", "anchors": ["simpeg/electromagnetics/static/resistivity/simulation.py: BaseDCSimulation.Jvec, fields, getJ; Simulation3DNodal.getA, getADeriv; Simulation3DCellCentered.getA, getADeriv", "simpeg/electromagnetics/static/resistivity/receivers.py: BaseRx.eval, evalDeriv"]}
{"id": "C64", "title": "DC sensitivities: adjoint and stored matrix agree with Jvec", "statement": "Jtvec of the static resistivity simulations is the exact adjoint of Jvec, and the product with the stored sensitivity matrix equals Jvec.", "quantifier": "every mesh, boundary condition, model, pair of vectors, survey", "why_tests_cant": "A dot product test samples vectors on a mesh; adjointness is an identity over all of them.", "anchors": ["simpeg/electromagnetics/static/resistivity/simulation.py: BaseDCSimulation.Jvec, Jtvec, _Jtvec, getJ"]}
{"id": "C65", "title": "A miniaturised survey gives the same data", "statement": "With miniaturize=True the simulation predicts exactly the data of the given survey, in order, from pole-pole potentials none of which is computed twice, and the transposed operation is its exact adjoint.", "quantifier": "every survey of pole and dipole sources and receivers, shared electrodes included, every potential field", "why_tests_cant": "The bookkeeping (unique electrodes, sorted pairs, masks, grouping into sources) has to be right for every arrangement of electrodes.", "anchors": ["simpeg/electromagnetics/static/resistivity/utils.py: _mini_pole_pole", "simpeg/electromagnetics/static/resistivity/simulation.py: BaseDCSimulation._mini_survey_data, _mini_survey_dataT", "simpeg/electromagnetics/static/resistivity/survey.py: Survey._set_abmn_locations"]}
{"id": "C66", "title": "DC results do not depend on earlier calls", "statement": "Fields, data, sensitivity products, the sensitivity matrix and the diagonal of J^T W J returned by a static resistivity simulation depend only on the arguments and the current survey and map, not on which calls were made before.", "quantifier": "every history of calls", "why_tests_cant": "The caches interact over histories of any length; a test runs one.", "anchors": ["simpeg/electromagnetics/static/resistivity/simulation.py: BaseDCSimulation.fields, getJ, getJtJdiag, getSourceTerm, dpred, _delete_on_model_update", "simpeg/base/pde_simulation.py: BaseElectricalPDESimulation.__setattr__, _delete_on_model_update", "simpeg/props.py: HasModel.model"]}
{"id": "C67", "title": "Property mass matrix derivatives are exact and adjoint", "statement": "For every inner product the products with the derivative of a mass matrix (and of its inverse) equal the derivative of the product with the mass matrix, for one or several fields, and the adjoint products are their transposes.", "quantifier": "every mesh inner product, property map, field and direction, real or complex", "why_tests_cant": "Identities over all vectors and meshes; tests sample a few.", "anchors": ["simpeg/base/pde_simulation.py: _inner_mat_mul_op, with_property_mass_matrices"]}
{"id": "C68", "title": "Frequency domain sensitivities are right", "statement": "In the frequency domain electromagnetic simulations (electric field, magnetic flux density, current density, magnetic field formulations), Jvec(m, v) is the derivative of the predicted data at m applied to v, Jtvec is its exact adjoint, and the stored sensitivity matrix has the rows of the same Jacobian, with respect to conductivity and magnetic permeability together.", "quantifier": "every mesh operator and size, invertible system, differentiable property map, model, vector, list of sources and receivers (real or imaginary parts of e, b, h, j)", "why_tests_cant": "Finite difference tests try a few random models on one mesh with one source per frequency; the wrong combinations (permeability maps with shared frequencies, dipoles in HJ formulations, current density receivers with primary fields) were not among them.", "anchors": ["simpeg/electromagnetics/frequency_domain/simulation.py: BaseFDEMSimulation.Jvec, Jtvec, getJ; getA, getADeriv, getRHS, getRHSDeriv of the four simulations", "simpeg/electromagnetics/frequency_domain/fields.py: *Deriv_u, *Deriv_m", "simpeg/electromagnetics/frequency_domain/sources.py: MagDipole, RawVec*, LineCurrent", "simpeg/electromagnetics/frequency_domain/receivers.py: BaseRx.eval, evalDeriv"]}
{"id": "C69", "title": "Frequency domain fields satisfy Maxwell's equations", "statement": "The fields computed by each frequency domain formulation satisfy the discrete Faraday and Ampere laws with the source terms; hence the two formulations on the same staggering predict identical data, and sources and receivers of the electric field can be interchanged.", "quantifier": "every mesh operator, model with invertible systems, nonzero frequency, list of sources and receivers", "why_tests_cant": "Cross-check tests compare formulations at one model within a tolerance; the identity is exact and for all models, and fails only for receivers and sources not tested (j with a primary electric field).", "anchors": ["simpeg/electromagnetics/frequency_domain/simulation.py: getA, getRHS of the four simulations", "simpeg/electromagnetics/frequency_domain/fields.py: Fields3DElectricField, Fields3DMagneticFluxDensity, Fields3DCurrentDensity, Fields3DMagneticField"]}
{"id": "C70", "title": "Frequency grouping visits every source once", "statement": "A frequency domain survey lists its frequencies in increasing order without repetition; looping over frequencies and the sources of each meets every source exactly once, so data are completely filled in source order and accumulated sums are those over the source list.", "quantifier": "every list of sources and assignment of frequencies, and later changes of the source list or a frequency", "why_tests_cant": "The grouping is a cache built at construction; tests build a survey once and do not change it.", "anchors": ["simpeg/electromagnetics/frequency_domain/survey.py: Survey.__init__, frequencies, get_sources_by_frequency", "simpeg/electromagnetics/frequency_domain/simulation.py: BaseFDEMSimulation.fields, Jvec, Jtvec"]}
{"id": "C71", "title": "Fields of several sources are the fields of each", "statement": "Column k of f[:, name] (or f[source_list, name]) is f[source k, name] for every field name of the frequency domain fields objects.", "quantifier": "every formulation, list of sources, solution array and field name", "why_tests_cant": "Tests index one source, or use the solution itself; the loop over sources has to be right for every number of sources.", "anchors": ["simpeg/electromagnetics/frequency_domain/fields.py: _e, _b, _h, _j, _ePrimary, _bPrimary, _bSecondary, _eSecondary, _jPrimary, _hPrimary, _hSecondary, _jSecondary", "simpeg/fields.py: Fields.__getitem__"]}
{"id": "C72", "title": "Time domain fields solve Maxwell's equations in time", "statement": "The fields computed by the four 3D time domain simulations satisfy the backward Euler discretisation of Faraday's law over every time step and Ampere's law at every time, with the given source terms; dbdt (or dhdt) is the difference quotient over the step; there is no other solution with the same initial field; and every step can be solved for positive properties and time steps.", "quantifier": "every mesh, model, list of sources, list of time steps and number of time steps", "why_tests_cant": "Tests compare with analytic decays on a few meshes with a few per cent tolerance; a wrong time index, a factorisation reused for another step, or a wrong source increment are within tolerance or need particular step lists.", "anchors": ["simpeg/electromagnetics/time_domain/simulation.py: BaseTDEMSimulation.fields, Simulation3D*.getAdiag, getAsubdiag, getRHS", "simpeg/electromagnetics/time_domain/fields.py"]}
{"id": "C73", "title": "Time domain sensitivities", "statement": "Jvec is the derivative of the predicted data and Jtvec its transpose, for all receivers, all four formulations and both inductive and grounded sources.", "quantifier": "every mesh, differentiable property map, model, vector, list of sources and receivers, list of time steps", "why_tests_cant": "Derivative tests use one step list, receivers in the interior of the time mesh and particular sources.", "anchors": ["simpeg/electromagnetics/time_domain/simulation.py: Jvec, Jtvec, getAdiagDeriv, getAsubdiagDeriv, getRHSDeriv, getInitialFieldsDeriv", "simpeg/electromagnetics/time_domain/fields.py: _*Deriv_u, _*Deriv_m", "simpeg/electromagnetics/time_domain/sources.py: eInitialDeriv, jInitialDeriv, hInitialDeriv"]}
{"id": "C74", "title": "Formulations of the time domain problem agree", "statement": "The electric field and magnetic flux density simulations (and the magnetic field and current density simulations) compute the same e, j, dbdt and dhdt when they start from the same state.", "quantifier": "every mesh, model, source and list of time steps", "why_tests_cant": "Cross checks run on one mesh within a tolerance.", "anchors": ["simpeg/electromagnetics/time_domain/simulation.py", "simpeg/electromagnetics/time_domain/fields.py"]}
{"id": "C75", "title": "Conservation of charge and flux in time domain simulations", "statement": "The divergence of the total current is constant in time, the divergence of the magnetic flux only changes by that of the magnetic source; grounded sources start in equilibrium: the induced current cancels the divergence of the source, and curl h is the total current.", "quantifier": "every mesh whose operators satisfy curl grad = 0 and div curl = 0, every model, source and list of time steps", "why_tests_cant": "The laws are never tested; they hold for all sizes and models or not at all.", "anchors": ["simpeg/electromagnetics/time_domain/simulation.py: getAdc", "simpeg/electromagnetics/time_domain/sources.py: LineCurrent.eInitial, jInitial, hInitial"]}
{"id": "C76", "title": "Time stepping is unconditionally stable", "statement": "While the sources are off the energy of the computed fields never grows, whatever the positive time steps are.", "quantifier": "every mesh, positive properties, initial field and list of positive time steps", "why_tests_cant": "Stability concerns all step lists of any length.", "anchors": ["simpeg/electromagnetics/time_domain/simulation.py: fields, getAdiag, getAsubdiag"]}
{"id": "C77", "title": "Waveform currents and their derivatives are consistent", "statement": "For every current waveform of time domain sources, the derivative it reports is the time derivative of the current it reports wherever the waveform has no declared time node, the integral of the derivative over any interval is the change of the current, the current stays between zero and the peak, starts and ends where its parameters say, is zero from off_time on, and a piecewise linear waveform interpolates the given currents for times given in any order and reports whether it has initial fields.", "quantifier": "every waveform of every class that its constructor accepts, every time and interval of times", "why_tests_cant": "Tests sample times on one waveform per class; the statement is about all real times and parameters, where boundary conditions of the branches matter.", "anchors": ["simpeg/electromagnetics/time_domain/sources.py: StepOffWaveform, RampOffWaveform, VTEMWaveform, TrapezoidWaveform, TriangularWaveform, QuarterSineRampOnWaveform, HalfSineWaveform, PiecewiseLinearWaveform, ExponentialWaveform"]}
{"id": "C78", "title": "Time domain sources drive the fields as their current and waveform say", "statement": "The computed fields of a wire are proportional to its current; a source whose current is steady at the beginning and which has initial fields keeps exactly the static fields it starts with until the current changes, starts from a field whose curl is the total current at the first time, and the fields of a magnetic dipole or loop follow the waveform at every time of the simulation, also when there is only one time step.", "quantifier": "every mesh, model, list of time steps, first time, current, waveform and source geometry", "why_tests_cant": "The tests compare two implementations on particular step lists and the default step-off waveform; statements about all waveforms and step lists need a proof.", "anchors": ["simpeg/electromagnetics/time_domain/sources.py: LineCurrent, MagDipole.s_e, MagDipole.bInitial, CircularLoop", "simpeg/electromagnetics/time_domain/simulation.py: getInitialFields, fields"]}
{"id": "C79", "title": "Source terms are those of the present attributes and mesh", "statement": "After any sequence of evaluations and assignments of attributes, and on whatever simulation or mesh it is used, a magnetic dipole, circular loop or line current gives the source term that a newly built source with the same attributes would give; refused assignments change nothing.", "quantifier": "every history of assignments and evaluations, every mesh, simulation and attribute value", "why_tests_cant": "A source object is shared between simulations and mutated; the claim is about all histories, tests build a source and use it once.", "anchors": ["simpeg/electromagnetics/time_domain/sources.py: MagDipole._srcFct, _rhs_magnetostatic, CircularLoop._srcFct, LineCurrent.Mejs, Mfjs", "simpeg/electromagnetics/frequency_domain/sources.py: MagDipole._dipole, hPrimary, MagDipole_Bfield._srcFct, CircularLoop._srcFct, LineCurrent.Mejs, Mfjs"]}
{"id": "C80", "title": "The cross-gradient term measures how far two properties are from having parallel gradients", "statement": "The value is the weighted sum over cells of |g1|^2|g2|^2-(g1.g2)^2 of averaged gradients, never negative, zero when the gradients are parallel, and at least the volume integral of the squared reported cross gradient; the gradient, Hessian and Hessian-vector products agree with it; registered weights multiply the cells; reported magnitudes are not negative; normalised gradients have norm one or are zero.", "quantifier": "every mesh (gradient, average, volumes), model, vector, weights, cutoff", "why_tests_cant": "Derivative tests sample models with default weights; identities and inequalities for all models, meshes and weights need a proof.", "anchors": ["simpeg/regularization/cross_gradient.py: CrossGradient.__call__, deriv, deriv2, calculate_cross_gradient, _calculate_gradient"]}
{"id": "C81", "title": "Joint total variation is a smooth convex function of any number of properties", "statement": "The value is the documented sum of square roots; gradient, Hessian and Hessian-vector products agree with it; the Hessian is symmetric positive semidefinite; constant models are the minimisers; nothing divides by zero; only wires whose properties all have the size of the mesh are accepted.", "quantifier": "every mesh, number of properties, model, vector, weights and eps", "why_tests_cant": "Tests check derivatives at random models for two properties; convexity and definedness quantify over all models.", "anchors": ["simpeg/regularization/jtv.py: JointTotalVariation.__call__, deriv, deriv2, wire_map"]}
{"id": "C82", "title": "The linear correspondence term is the squared residual of the linear relation", "statement": "The value is the sum over cells of (k1 m1 + k2 m2 + k3)^2, zero exactly when the relation holds in every cell; gradient, Hessian and products agree with it; the Hessian is symmetric positive semidefinite; wires are accepted exactly for two properties of the size of the mesh, others raise a ValueError.", "quantifier": "every mesh, coefficients, model and vector, all lists of wire sizes", "why_tests_cant": "The identity and the validation are statements about all coefficients, models and wires.", "anchors": ["simpeg/regularization/correspondence.py: LinearCorrespondence.relation, __call__, deriv, deriv2, wire_map"]}
{"id": "C83", "title": "Full gradient smoothness penalises the gradient along the given directions with the given weights", "statement": "The value is the sum over active cells and corners of the squared components of the gradient along the directions of the cell with its weights; it is not negative, zero for constants relative to the reference, and ignores faces to inactive cells; gradient and Hessian agree with it; weights and directions given per cell or per active cell are accepted, others (wrong count, negative, not orthonormal when checked) are refused.", "quantifier": "every mesh, active cells, weights, directions, mapping, model and vector", "why_tests_cant": "The combination of shapes, active cells and anisotropic directions is unbounded; the tests use a few.", "anchors": ["simpeg/regularization/_gradient.py: SmoothnessFullGradient.__init__, __call__, deriv, deriv2, W"]}
{"id": "C84", "title": "Vector regularizations measure direction and amplitude as documented", "statement": "The cross reference term is the weighted sum of squared cross products with the reference directions, zero exactly for parallel vectors; the amplitude terms are those of the vector amplitudes, do not depend on the orientation of the axes, and their gradient and Hessian agree with the value for every mapping; weights of every accepted shape take effect as documented; reference directions of the documented shapes are accepted and others refused.", "quantifier": "every mesh, mapping, reference, number of components, weights of every accepted shape, model and vector", "why_tests_cant": "Tests use the identity mapping and a few weights; the claims range over all mappings, shapes of weights and models.", "anchors": ["simpeg/regularization/vector.py: CrossReferenceRegularization, BaseAmplitude, AmplitudeSmallness, AmplitudeSmoothnessFirstOrder"]}
{"id": "C85", "title": "The operators of the regularization mesh live on the active cells only and follow the active cells", "statement": "A face is kept exactly when the cells on both sides are active; the gradient is the difference of the two active cells over the distance of their centres and zero exactly for models constant across kept faces; averages from cells to faces and back preserve constants; cell distances are the distances of the centres; the operators served at any time are those of the active cells in force; active cells can be given once, as booleans or indices, and every accepted array means the cells it names.", "quantifier": "every tensor or tree mesh, active set, model, and every history of assignments, reads and in-place changes", "why_tests_cant": "The tests use a few meshes and active sets and one order of calls; the claims range over all of them and all histories.", "anchors": ["simpeg/regularization/regularization_mesh.py: RegularizationMesh.active_cells, Pac, Pafx, aveFx2CC, aveCC2Fx, cell_gradient_x, cell_distances_x, _clean"]}
{"id": "C86", "title": "Smoothness of angles does not depend on how the angles are wound", "statement": "With units radian the first order smoothness at a face between two active cells is the difference of the two angles brought into [-pi, pi) over the distance of the centres; adding any multiples of 2 pi to any cells changes nothing; the difference used is the shortest one and the value at most that of the term without units; the reported derivative is the gradient wherever no two neighbours point in opposite directions.", "quantifier": "every tensor mesh, active set, weights, mapping, reference and model", "why_tests_cant": "Invariance under winding and the derivative across the branch cut are statements about all models; a test samples a few angles.", "anchors": ["simpeg/regularization/base.py: SmoothnessFirstOrder.f_m, f_m_deriv", "simpeg/utils/mat_utils.py: coterminal"]}
{"id": "C87", "title": "Every engine and storage mode of a potential field simulation orders the data by receiver list, location and component", "statement": "The data, the rows of the matrix, the products with the transposed operator and the diagonal of G.T W G use one order: receivers in survey order, then locations, then components; each datum is the product of its own row with the model; forward-only evaluation, stored matrices and both engines agree; the operator and its transpose are adjoint; weights act on the datum with their index.", "quantifier": "every list of receivers with any locations and components (repeated or not), every kernel, model, data vector and weights", "why_tests_cant": "Index arithmetic with offsets and strides over receivers of different sizes is right for all lists only by proof; tests use one or two receivers.", "anchors": ["simpeg/potential_fields/gravity/simulation.py: _forward, _sensitivity_matrix, _sensitivity_matrix_transpose_dot_vec, _gtg_diagonal_without_building_g", "simpeg/potential_fields/magnetics/simulation.py: the same methods", "simpeg/potential_fields/base.py: linear_operator", "simpeg/potential_fields/magnetics/survey.py: _location_component_iterator"]}
{"id": "C88", "title": "An entry of a potential field matrix is the integral of the named derivative of the Green's function over the cell, whichever engine and whichever other components are asked for", "statement": "The eight nodes found for each active cell are its corners; the value of a cell is the difference over the cell of the antiderivative, hence its integral, and a homogeneous block gives the same datum however it is divided; every requested component is computed, with any other components in the list, from the kernel its name says (with tmi and its derivatives the projections on the inducing field); both engines give the same number in the same units for scalar and vector models.", "quantifier": "every tensor mesh, cell, receiver, list of components, inducing field and kernels that are what their names say", "why_tests_cant": "There are 2^13 lists of components with shared intermediate values, and additivity over meshes is a statement about all meshes.", "anchors": ["simpeg/potential_fields/magnetics/simulation.py: evaluate_integral, CHOCLO_KERNELS", "simpeg/potential_fields/gravity/simulation.py: evaluate_integral, _get_conversion_factor", "simpeg/potential_fields/_numba_utils.py: kernels_in_nodes_to_cell", "simpeg/potential_fields/base.py: BasePFSimulation.__init__"]}
{"id": "C89", "title": "Sensitivities of potential field simulations are the derivatives of their data", "statement": "getJ is the derivative of the predicted data with respect to the model, Jvec and Jtvec its products and adjoint of each other, also for amplitude data where no amplitude is zero; getJtJdiag is the diagonal of J.T W.T W J, with default weights of one.", "quantifier": "every matrix, differentiable mapping, model, vector and weights", "why_tests_cant": "Derivatives and adjoints at all models; tests sample identity-like mappings.", "anchors": ["simpeg/potential_fields/gravity/simulation.py: getJ, Jvec, Jtvec, getJtJdiag", "simpeg/potential_fields/magnetics/simulation.py: getJ, Jvec, Jtvec, getJtJdiag, ampDeriv, compute_amplitude, normalized_fields"]}
{"id": "C90", "title": "What a potential field simulation remembers never shows in its results", "statement": "After any sequence of model assignments, reads and changes of settings the matrix, the derivative of amplitudes and the diagonal of J.T J are those of the current settings, model and weights, and a sensitivity file left on disk is used only if it belongs to the simulation.", "quantifier": "every history of operations and every content of the sensitivity file", "why_tests_cant": "The claim is about all histories; a test runs a few.", "anchors": ["simpeg/potential_fields/gravity/simulation.py: G, getJtJdiag", "simpeg/potential_fields/magnetics/simulation.py: G, ampDeriv, tmi_projection, M, getJtJdiag, _delete_on_model_update", "simpeg/potential_fields/base.py: linear_operator"]}
{"id": "C91", "title": "With several data misfits the inversion stops when, and only when, all of them have reached their targets", "statement": "MultiTargetMisfits computes each target from the data of the current misfits and its chi factor (unless one is given), asks the optimiser to stop exactly at the end of an iteration after which every geophysical misfit is at or below its target (or the prescribed alternatives), and the run ends there; the weights of the clustering part are those asked for.", "quantifier": "every list of misfits, chi factors, targets, histories of misfit values, other directives and earlier inversions with the same directive", "why_tests_cant": "Tests run one inversion with matching lists; reuse, shorter lists and every pattern of fitted and unfitted misfits are not sampled.", "anchors": ["simpeg/directives/_directives.py: MultiTargetMisfits"]}
{"id": "C92", "title": "JointScalingSchedule rebalances the misfits towards those that are not fitted", "statement": "When some but not all misfits have reached their targets, the multipliers of the unfitted ones grow relative to those of the fitted ones by a common factor, at least the warming factor, and the new multipliers are positive and add up to one; otherwise they are unchanged; this uses the misfits of the current iteration, for every accepted order of the directives and every container of multipliers.", "quantifier": "every list of misfits, multipliers, targets, ratio limits and iteration histories", "why_tests_cant": "The rebalancing loops over all subsets of fitted misfits; order dependence shows only for some lists of directives.", "anchors": ["simpeg/directives/_directives.py: JointScalingSchedule"]}
{"id": "C93", "title": "The power iteration returns a Rayleigh quotient that never exceeds the largest eigenvalue and converges to it", "statement": "eigenvalue_by_power_iteration returns the Rayleigh quotient of the weighted combination at a nonzero vector: it lies between the smallest and the largest eigenvalue, grows with the number of iterations, scales with the objective function, is within a computable distance of the largest eigenvalue and converges to it if the starting vector has a component along it.", "quantifier": "every symmetric positive semidefinite Hessian, combination of functions, starting vector and number of iterations", "why_tests_cant": "Convergence is a statement about all iteration counts; tests compare one matrix with a tolerance.", "anchors": ["simpeg/utils/mat_utils.py: eigenvalue_by_power_iteration"]}
{"id": "C94", "title": "Starting values from eigenvalues make the parts of the objective function comparable, in any units, once", "statement": "The starting trade-off parameter equals the requested ratio times the quotient of the estimated curvatures (or derivatives) of misfit and regularization; it is nonnegative, independent of a common factor, unchanged by the order of evaluation; scaled misfits are comparable; smoothness multipliers are set per term; the settings are honoured and initializing again gives the same values.", "quantifier": "every problem, ratio, multipliers, number of power iterations and number of initializations", "why_tests_cant": "Tests compare one estimate with a stored number; scale invariance and idempotence quantify over all problems and histories.", "anchors": ["simpeg/directives/_directives.py: BetaEstimate_ByEig, BetaEstimateMaxDerivative, ScalingMultipleDataMisfits_ByEig, AlphasSmoothEstimate_ByEig", "simpeg/directives/_sim_directives.py: PairedBetaEstimate_ByEig"]}
{"id": "C95", "title": "UpdatePreconditioner supplies the Jacobi preconditioner of the current Hessian", "statement": "The preconditioner is positive definite on the parameters that matter, is the inverse of the diagonal of the Hessian the optimiser solves with, and after every iteration belongs to the current model and trade-off parameter for every accepted order of directives.", "quantifier": "every combination of misfits and regularizations with multipliers, every trade-off parameter, model and list of directives", "why_tests_cant": "Multipliers other than one and lists in which the trade-off parameter changes after the directive are not in the tests; inexact solves hide the difference.", "anchors": ["simpeg/directives/_directives.py: UpdatePreconditioner", "simpeg/data_misfit.py: deriv2", "simpeg/objective_function.py: ComboObjectiveFunction.deriv2"]}
{"id": "C96", "title": "Sensitivity weights are relative sensitivities of each parameter", "statement": "With the default settings the weights are the sensitivities relative to the largest, never below the threshold, at most one, with one attained (normalized by the smallest value: at least one); they do not depend on the units of the data; every parameter counts once; every term of every regularization gets the weights of its own parameters, and an update replaces the ones before.", "quantifier": "every sensitivity, list of regularizations with volumes and mappings, threshold and normalization", "why_tests_cant": "Zero sensitivities, overlapping regularizations and all thresholds are not sampled; scale invariance is a statement about all factors.", "anchors": ["simpeg/directives/_directives.py: UpdateSensitivityWeights.update, initialize, endIter"]}
{"id": "C97", "title": "A list of directives that is accepted works on current values", "statement": "The validation accepts a list exactly if it has at most one estimator of the trade-off parameter, sensitivity weights before it and before preconditioners, UpdateIRLS before preconditioners and without a cooling schedule, spherical weights before it, and similarity directives first; in an accepted list the preconditioner and the estimate of the trade-off parameter are those of the weights and the trade-off parameter the next iteration is made with; a refused list changes nothing.", "quantifier": "every list of directives of any length and every behaviour of the directives", "why_tests_cant": "Tests try a handful of orders of two or three directives.", "anchors": ["simpeg/directives/_directives.py: DirectiveList.validate, BaseBetaEstimator.validate, UpdateSensitivityWeights.validate", "simpeg/directives/_regularization.py: UpdateIRLS.validate", "simpeg/directives/_sim_directives.py: SimilarityMeasureInversionDirective.validate", "simpeg/inversion.py: BaseInversion.directiveList"]}
{"id": "C98", "title": "In joint inversions with a coupling term every pair of misfit and regularization is steered by its own misfit", "statement": "After every iteration the values shown for each misfit, each regularization and the coupling are those of that function; PairedBetaSchedule lowers the trade-off parameter of a pair when its misfit is above the target, within the cooling factor, raises it when below (if update_beta), and leaves the multiplier of the coupling; MovingAndMultiTargetStopping stops when all targets are met and the model no longer changes; the saved trade-off parameters are those of each iteration, and a saved file can be loaded.", "quantifier": "every number of pairs, multipliers (zero included), values, targets, iteration histories, containers of multipliers and orders of directives", "why_tests_cant": "Tests run a few iterations with unit multipliers; zero multipliers, aliasing of saved lists and misfits below their target are not sampled.", "anchors": ["simpeg/directives/_sim_directives.py: SimilarityMeasureInversionDirective, SimilarityMeasureSaveOutputEveryIteration, PairedBetaSchedule, MovingAndMultiTargetStopping", "simpeg/objective_function.py: ComboObjectiveFunction.__call__"]}
{"id": "C99", "title": "Saving directives write one file per iteration and report the parts of the objective function", "statement": "The saving directives write the model of every iteration to a file of its own, named so that files of one run sort in the order of the iterations and files of different runs differ; the columns of the saved table are the parts of the regularization and sum to its value; the saved table can be loaded; the output dictionary keeps the entries of every regularization.", "quantifier": "every name, number of iterations, start time, list of regularizations and multipliers", "why_tests_cant": "Names, numbers of iterations and structures of regularizations are unbounded; tests use one simple name and one regularization.", "anchors": ["simpeg/directives/_directives.py: SaveEveryIteration, SaveModelEveryIteration, SaveOutputEveryIteration, SaveOutputDictEveryIteration"]}
{"id": "C100", "title": "Natural source receivers return the transfer functions between the fields", "statement": "Impedance and tipper data are the one row of coefficients relating the named field component to the two horizontal magnetic components for both polarisations, whatever two independent polarisations were simulated; admittance data relate the magnetic to the horizontal electric components in the same sense; apparent resistivity and phase determine the impedance and are the resistivity and 45 or -135 degrees over a half space; apparent conductivity is the conductivity of a half space; in one and two dimensions the datum is the quotient of the fields at the two given locations.", "quantifier": "every projection of the fields to the receivers, every pair of fields with independent polarisations, orientation, component, frequency, resistivity and pair of locations", "why_tests_cant": "Tests compare one half space with tolerances; fields of arbitrary polarisation and locations cannot be enumerated.", "anchors": ["simpeg/electromagnetics/natural_source/receivers.py: Impedance, Admittance, Tipper, ApparentConductivity, _ElectricAndMagneticReceiver"]}
{"id": "C101", "title": "Natural source receivers are differentiated correctly", "statement": "For impedance, admittance, tipper and apparent conductivity receivers of every component, evalDeriv is the derivative of eval along every change of the fields, evalDeriv(adjoint=True) is its transpose in the real inner product, and the matrix-valued adjoint used by getJ gives the same columns.", "quantifier": "every projection, fields, change of the fields, orientation, component and vector of weights, wherever the data are differentiable", "why_tests_cant": "Derivative tests sample one direction on one mesh; an error in one component or orientation, or for more than one location, is invisible in them.", "anchors": ["simpeg/electromagnetics/natural_source/receivers.py: evalDeriv, _eval_impedance_deriv, _eval_admittance_deriv, _eval_tipper_deriv, ApparentConductivity.evalDeriv"]}
{"id": "C102", "title": "One- and two-dimensional natural source simulations solve Maxwell's equations and have correct sensitivities", "statement": "The fields of the electric and magnetic field simulations satisfy the discrete equations of Faraday and Ampere with the boundary values; Jvec is the derivative of the data and Jtvec its transpose, including the dependence of the boundary values on the model through the one-dimensional simulations at the sides; the boundary values are those of the present model and properties and of one-dimensional meshes with the cells of the boundary.", "quantifier": "every mesh operator, map, model, frequency, list of sources and receivers, cell widths and origin, and every sequence of changes of model and properties", "why_tests_cant": "The dependence of the boundary values on the model is one more solve per side; tests use meshes starting at zero and set properties once.", "anchors": ["simpeg/electromagnetics/natural_source/simulation.py: Simulation1DElectricField, Simulation1DMagneticField, Simulation2DElectricField, Simulation2DMagneticField, _centers_to_widths", "simpeg/electromagnetics/natural_source/fields.py: _1DField, _EField, _HField"]}
{"id": "C103", "title": "Two-and-a-half dimensional resistivity data are the quadrature of the wavenumber solutions and have correct sensitivities", "statement": "Every datum is the weighted sum over wavenumbers of the receiver's value of the solution for the source; Jvec is the derivative of the data with respect to the model, Jtvec its transpose, and a stored J gives the same products; for both discretizations and boundary conditions, with the exact derivative of the boundary term.", "quantifier": "every mesh operator, map differentiable at the model, model, list of wavenumbers with weights, sources, receivers, vector and weights, wherever the matrices are invertible", "why_tests_cant": "Tests compare one model on one mesh with tolerances; wavenumbers, sources sharing receivers and boundary terms cannot be enumerated.", "anchors": ["simpeg/electromagnetics/static/resistivity/simulation_2d.py: BaseDCSimulation2D.fields, dpred, getJ, Jvec, Jtvec, Simulation2DCellCentered, Simulation2DNodal", "simpeg/electromagnetics/static/resistivity/fields_2d.py"]}
{"id": "C104", "title": "Sensitivities of the two-and-a-half dimensional nodal simulation are those of the present model", "statement": "Whatever was computed for other models before, Jvec, Jtvec, the stored J and the data are those a new simulation would return for the present model.", "quantifier": "every sequence of predictions and products with models", "why_tests_cant": "Derivative tests start from a new simulation; histories of models are unbounded.", "anchors": ["simpeg/electromagnetics/static/resistivity/simulation_2d.py: Simulation2DNodal.getADeriv, _MBC_sigma, deleteTheseOnModelUpdate"]}
{"id": "C105", "title": "Settings of the two-and-a-half dimensional simulation take effect when changed", "statement": "After any sequence of changes of the boundary condition, the surface faces and the number of wavenumbers and of predictions, the data are those of a new simulation with the present settings.", "quantifier": "every sequence of changes of settings and predictions", "why_tests_cant": "Tests set every setting once in the constructor.", "anchors": ["simpeg/electromagnetics/static/resistivity/simulation_2d.py: bc_type, surface_faces, nky, Simulation2DCellCentered.setBC, Simulation2DNodal.setBC"]}
{"id": "C106", "title": "Wavenumber quadratures integrate what they claim", "statement": "The trapezoidal weights (divided by pi) integrate exactly every function linear between consecutive wavenumbers and constant below the first one, and are positive for increasing wavenumbers; the optimised weights minimise the squared error of the analytic potential over the sampled distances among all weights.", "quantifier": "every increasing list of wavenumbers, function, set of distances and competing weights", "why_tests_cant": "A test sees only one list of wavenumbers; minimality ranges over all weights.", "anchors": ["simpeg/electromagnetics/static/resistivity/simulation_2d.py: BaseDCSimulation2D.__init__"]}
{"id": "C107", "title": "Straight ray travel times are line integrals of slowness", "statement": "The matrix entry of a ray and a cell is the length of the part of the ray inside the cell; the predicted travel time of every source and receiver is the integral of the cellwise constant slowness along the straight ray, in the order of the survey; the lengths of a ray inside the mesh add up to its length.", "quantifier": "every pair of source and receiver, tensor mesh and slowness", "why_tests_cant": "Tests compare a few rays; rays through corners, along axes, ending inside cells or missing the mesh are infinitely many configurations.", "anchors": ["simpeg/seismic/straight_ray_tomography/simulation.py: _lengthInCell, _lineintegral, Simulation2DIntegral.A, fields"]}
{"id": "C108", "title": "Linear simulations predict G times the mapped model and have exact sensitivities for the present settings", "statement": "dpred is the operator applied to the mapped model, of the last model given if none is given; getJ is its derivative and Jvec and Jtvec its products; the rows of the exponential sinusoids integrate the kernels exactly for linear interpolation between nodes; changed settings, survey or mesh take effect.", "quantifier": "every operator, map, model, history of calls and settings", "why_tests_cant": "Histories of calls and settings are unbounded, tests construct a new simulation each time.", "anchors": ["simpeg/simulation.py: LinearSimulation, ExponentialSinusoidSimulation", "simpeg/seismic/straight_ray_tomography/simulation.py: Simulation2DIntegral.A"]}
{"id": "C109", "title": "Times of a time domain simulation are those of its present steps", "statement": "After any sequence of assignments of the initial time and of the steps, in either form, the times are the initial time and the running sums of the steps, one more than there are steps, increasing for positive steps; the compact form stands for the steps written out.", "quantifier": "every sequence of assignments and reads, every list of steps", "why_tests_cant": "The time mesh is kept between reads; histories are unbounded.", "anchors": ["simpeg/simulation.py: BaseTimeSimulation.time_steps, t0, time_mesh, times, nT"]}
{"id": "C110", "title": "Time domain fields return what was stored for every selection of sources and times", "statement": "Storing an array for a selection of sources and times and reading any selection returns for every row, source and time the value stored last; other entries are unchanged; computed fields have the value of their function at the stored field of that source and time; selections by lists, slices, integers and arrays are all accepted.", "quantifier": "every number of rows, sources and times, selection and value", "why_tests_cant": "Index selections combine in unboundedly many ways and shapes are changed silently.", "anchors": ["simpeg/fields.py: TimeFields._setField, _getField, _correctShape"]}
{"id": "C111", "title": "Induced polarization data are the change of the resistivity data", "statement": "For a chargeability given directly by the model, the predicted data are minus the derivative of the resistivity data with respect to the logarithm of conductivity, in the direction of the chargeability; Jvec and Jtvec are adjoint products with this matrix and getJtJdiag the weighted diagonal; a uniform chargeability gives that chargeability times the resistivity data; scaling the conductivity scales the resistivity data inversely; apparent chargeability divides by the resistivity data.", "quantifier": "every mesh, conductivity, survey, chargeability, discretization in three and 2.5 dimensions", "why_tests_cant": "Tests check the order of convergence for one model; that the linearised response is the derivative is a statement about all conductivities and chargeabilities.", "anchors": ["simpeg/electromagnetics/static/induced_polarization/simulation.py: BaseIPSimulation.fields, forward, Jvec, Jtvec, getJtJdiag, _scale, etaDeriv"]}
{"id": "C112", "title": "Induced polarization results do not depend on the history of calls", "statement": "Predictions, sensitivities, products and diagonals are those a new simulation with the same conductivity would return for the given model, whatever was called before.", "quantifier": "every history of calls of fields, dpred, getJ, Jvec, Jtvec, getJtJdiag and assignments of settings", "why_tests_cant": "Histories are unbounded; nothing is cleared when the model changes, so an effect appears only in particular orders of calls.", "anchors": ["simpeg/electromagnetics/static/induced_polarization/simulation.py: BaseIPSimulation.fields, dpred, getJtJdiag, _scale, _delete_on_model_update", "simpeg/electromagnetics/static/resistivity/simulation.py: BaseDCSimulation.getJ"]}
{"id": "C113", "title": "Geometric factors and apparent resistivities", "statement": "The geometric factor of every datum is (1/AM - 1/BM - 1/AN + 1/BN)/(2 pi) (4 pi in a whole space) of the distances of its electrodes, terms of absent electrodes dropped, in the order of the data; it changes sign when A and B or M and N are exchanged, is unchanged when sources and receivers are exchanged or the survey is moved, scales inversely with length, and adds over intermediate electrodes; apparent resistivities from voltages of a uniform half space are its resistivity.", "quantifier": "every survey of poles and dipoles, dimension and resistivity", "why_tests_cant": "Tests compare a few arrays with the formula written out again; signs, reciprocity and absent electrodes concern all arrays, and currents other than one are never tried.", "anchors": ["simpeg/electromagnetics/static/utils/static_utils.py: electrode_separations, geometric_factor, apparent_resistivity_from_voltage", "simpeg/electromagnetics/static/resistivity/survey.py: Survey.set_geometric_factor", "simpeg/electromagnetics/static/resistivity/receivers.py: BaseRx.eval, evalDeriv"]}
{"id": "C114", "title": "Electrode arrays of a survey and draping on topography", "statement": "locations_a, locations_b, locations_m and locations_n have one row for every datum in the order of the data, a pole repeating its electrode; draping moves every electrode to the topography at its horizontal position, keeps the number and order of data, poles and dipoles, and afterwards the arrays are those of the moved electrodes, whatever was asked before.", "quantifier": "every survey, topography and history of calls", "why_tests_cant": "Arrays are kept after the first use; whether they agree with the sources depends on the history of assignments, draping and reading.", "anchors": ["simpeg/electromagnetics/static/resistivity/survey.py: Survey.locations_a, locations_b, locations_m, locations_n, _set_abmn_locations, drape_electrodes_on_topography"]}
{"id": "C115", "title": "Source terms of resistivity carry the current of the electrodes", "statement": "The nodal right hand side paired with any nodal function is the sum of the currents times the interpolated function at the electrodes; its total is the sum of currents, zero for dipoles; the cell centred right hand side puts the current of each electrode in its nearest cell.", "quantifier": "every source, mesh, interpolation and current", "why_tests_cant": "Tests use well separated electrodes; the assignment is by index, so the outcome depends on coincidences of nearest cells.", "anchors": ["simpeg/electromagnetics/static/resistivity/sources.py: BaseSrc.eval, Dipole.__init__"]}
{"id": "C116", "title": "Discrete topography and points draped on it", "statement": "The discrete topography of each column of cells is the top (or centre) of its highest active cell, and a column without active cells raises; points shifted to it lie at the given height above the surface of the column which contains them, over its centre or at their own horizontal position; shifting again changes nothing.", "quantifier": "every tensor mesh in two and three dimensions, active cells, heights and points inside columns", "why_tests_cant": "Tests use meshes with equal widths or points at centres of cells; whether the nearest centre is the containing column depends on the widths around the point.", "anchors": ["simpeg/utils/mesh_utils.py: get_discrete_topography, _closest_grid_indices, shift_to_discrete_topography"]}
{"id": "C117", "title": "Splitting a 3D resistivity survey into 2D lines keeps every datum", "statement": "Converting a 3D survey with line identifiers into 2D line surveys returns for every line the data of that line, each exactly once, with sources and receivers at their distance along the line and at their elevation, with the same currents, and with the origin at the first source position.", "quantifier": "every survey and every assignment of line identifiers", "why_tests_cant": "A test converts one survey whose sources have distinct positions; coinciding positions, single sources and dipoles across lines occur in field data.", "anchors": ["simpeg/electromagnetics/static/utils/static_utils.py: convert_survey_3d_to_2d_lines"]}
{"id": "C118", "title": "Pseudo-chargeability follows the pulses and its derivatives are exact", "statement": "The pseudo-chargeability after a number of pulses is the average over the pulses of the decay in the following off time, a stretched exponential without pulses, and the derivatives with respect to chargeability, inverse time constant and exponent are the exact ones.", "quantifier": "every number of pulses, period, positive time and time constant, chargeability and exponent", "why_tests_cant": "Finite differences at one model and the two pulses of the class default do not show that the formula is that of the documented pulse train for every number of pulses.", "anchors": ["simpeg/electromagnetics/static/spectral_induced_polarization/simulation.py: get_peta, get_peta_pulse_off, get_multi_pulse_response, get_peta_eta_deriv, get_peta_taui_deriv, get_peta_c_deriv"]}
{"id": "C119", "title": "Spectral induced polarization: predictions, sensitivities and their order", "statement": "Jvec is the derivative of the predicted data, Jtvec its adjoint, results with stored sensitivities equal those without, and data indexed by source, receiver and time are those of that source, receiver and time.", "quantifier": "every survey with any number of sources, receivers and times, every model and map", "why_tests_cant": "Tests use one source with one receiver, for which the order of receivers and times cannot matter.", "anchors": ["simpeg/electromagnetics/static/spectral_induced_polarization/simulation.py: forward, Jvec, Jtvec", "simpeg/electromagnetics/static/spectral_induced_polarization/simulation_2d.py: getJ", "simpeg/electromagnetics/static/spectral_induced_polarization/data.py: Data.index_dictionary, __getitem__"]}
{"id": "C120", "title": "Spectral induced polarization results do not depend on the history of calls", "statement": "Predictions and products are those a new simulation would return for the given model, whatever was called before, with or without fields handed over and stored sensitivities.", "quantifier": "every history of assignments of the model and calls of fields, dpred, Jvec, Jtvec", "why_tests_cant": "Histories are unbounded; stale properties are used only in particular orders of calls.", "anchors": ["simpeg/electromagnetics/static/spectral_induced_polarization/simulation.py: fields, forward, dpred, Jvec, Jtvec, getJ, _delete_on_model_update, etaDeriv_store"]}
{"id": "C121", "title": "Apparent chargeability is divided by the voltage of its own source", "statement": "Data and products of apparent chargeability are those of voltages divided by the resistivity voltage which the receiver records for the source, however often fields are computed.", "quantifier": "every survey, every assignment of receivers to sources, any number of calls", "why_tests_cant": "A test with one source cannot see that a receiver keeps one voltage only.", "anchors": ["simpeg/electromagnetics/static/spectral_induced_polarization/simulation.py: BaseSIPSimulation.fields", "simpeg/electromagnetics/static/spectral_induced_polarization/receivers.py: dc_voltage, getP"]}
{"id": "C122", "title": "Self potential: charges, predictions and sensitivities", "statement": "The current density map returns minus the divergence of the current, with no current through the boundary of the active cells, and conserves charge; the hydraulic head map returns the divergence of the coupling times the gradient of the head; Jvec is the derivative of the predicted data and Jtvec its adjoint, for every map to charges and boundary condition.", "quantifier": "every mesh, set of active cells, current density, head, map and model", "why_tests_cant": "Tests check derivatives of linear maps on a uniform mesh with Robin conditions, where wrong signs, cells of different volumes and unsymmetric matrices cannot show.", "anchors": ["simpeg/electromagnetics/static/self_potential/simulation.py: Simulation3DCellCentered.getRHS, getRHSDeriv, CurrentDensityMap, HydraulicHeadMap", "simpeg/electromagnetics/static/resistivity/simulation.py: Simulation3DCellCentered.getA"]}
{"id": "C123", "title": "Self potential results do not depend on the history of calls", "statement": "Sensitivities, products and diagonals are those a new simulation would return for the given model and weights, whatever was called before.", "quantifier": "every history of calls, both settings of storeJ, linear and other maps", "why_tests_cant": "A test only compares the list of attributes to be deleted.", "anchors": ["simpeg/electromagnetics/static/self_potential/simulation.py: _delete_on_model_update", "simpeg/electromagnetics/static/resistivity/simulation.py: getJ, getJtJdiag, Jvec, Jtvec"]}
{"id": "C124", "title": "Derivatives of parametric maps are exact", "statement": "For every parametric map (layer, block, ellipsoid, casing in a layer, block in a layer, circle, polynomial and spline interface) the derivative with respect to the parameters is the Jacobian of the map, and the product with a vector is that of the matrix.", "quantifier": "every parameter vector with nonzero widths, every mesh, slope, exponent, dimension, number of coefficients and history of calls", "why_tests_cant": "Tests compare with finite differences at one random model; coefficient orders, defaults and calls in another order remain untested.", "anchors": ["simpeg/maps/_parametric.py: ParametricLayer, ParametricBlock, ParametricEllipsoid, ParametricCasingAndLayer, ParametricBlockInLayer, ParametricCircleMap, ParametricPolyMap, ParametricSplineMap; _transform, deriv"]}
{"id": "C125", "title": "Parameters of parametric maps have their documented meaning", "statement": "In the limit of steep slopes a parametric map assigns every location off the interfaces the value of the documented unit which contains it: inside layer, block, ellipsoid, casing, circle, or above or below the interface; the formulas agree with the documented ones.", "quantifier": "every location off the interfaces, every parameter vector with positive widths", "why_tests_cant": "A limit is not reached by any run, and locations and parameters are unbounded.", "anchors": ["simpeg/maps/_parametric.py: ParametricLayer, ParametricBlock, ParametricEllipsoid, ParametricCasingAndLayer, ParametricBlockInLayer, ParametricCircleMap, ParametricPolyMap; _transform"]}
{"id": "C126", "title": "Parametric maps stay between the values of their units", "statement": "At every location and for every slope the value of a parametric map lies between the smallest and the largest of the values of its units, so positive properties give positive models.", "quantifier": "every location, slope, parameter vector", "why_tests_cant": "Bounds over all real parameters.", "anchors": ["simpeg/maps/_parametric.py: ParametricLayer, ParametricBlock, ParametricCasingAndLayer, ParametricBlockInLayer, ParametricCircleMap, ParametricPolyMap, ParametricSplineMap; _transform"]}
{"id": "C127", "title": "Parametric maps follow their active cells", "statement": "After any assignments of active cells and any evaluations a parametric map returns one value per active cell, at the centre of that cell, as a new map with these active cells would.", "quantifier": "every history of assignments of active cells and evaluations", "why_tests_cant": "Coordinates kept between calls matter only in particular orders of assignment and evaluation.", "anchors": ["simpeg/maps/_parametric.py: BaseParametric.x, y, z, active_cells, shape, nP; ParametricPolyMap.active_cells"]}
{"id": "C128", "title": "Line currents on edges conserve charge and integrate the wire", "statement": "The edge source term of a wire is, on every edge, the integral along the wire of the function of that edge; its discrete divergence is the interpolation weight of the end of the wire minus that of its beginning, so closed wires are free of charge. On tree meshes the same holds against every potential of the mesh. Wires in the mesh are accepted, others raise ValueError.", "quantifier": "every tensor mesh and every tree mesh, every polygonal wire with any number of vertices", "why_tests_cant": "Segments are cut at all crossed nodes; every wire crosses another sequence of cells.", "anchors": ["simpeg/electromagnetics/utils/current_utils.py: segmented_line_current_source_term, _poly_line_source_tensor, _poly_line_source_tree, getStraightLineCurrentIntegral"]}
{"id": "C129", "title": "Line currents through faces conserve charge", "statement": "A wire along the axes through cell centres is accepted, each crossed face carries the unit current in the direction of the wire, and the divergence integrated over a cell is the current entering or leaving at the ends of the wire and zero elsewhere; the loop wound twice carries twice the current.", "quantifier": "every tensor mesh, every wire through cells along the axes, any number of vertices, anywhere in space", "why_tests_cant": "Tests use a few short wires near the origin; wires, meshes and offsets are unbounded.", "anchors": ["simpeg/electromagnetics/utils/current_utils.py: line_through_faces"]}
{"id": "C130", "title": "Petrophysical smallness in least-squares form: value, gradient, Hessian", "statement": "The value of the petrophysical smallness is the weighted Mahalanobis distance of the mapped model to the mean of the rock unit of each cell; the gradient is its gradient, the Hessian product is symmetric, positive semidefinite and for affine maps the Jacobian of the gradient, and the Hessian matrix agrees with the product. The unit of a cell is the one whose mean is its reference.", "quantifier": "every number of properties, cells and units, all covariance types, weights, maps and models", "why_tests_cant": "Tests check a few mixtures with identity maps at random models; derivatives must hold for all maps, covariance types and models.", "anchors": ["simpeg/regularization/pgi.py: PGIsmallness.__call__, deriv, deriv2, compute_quasi_geology_model"]}
{"id": "C131", "title": "Full mixture form of the petrophysical smallness", "statement": "The value is minus twice the logarithm of the mixture density, deriv is its gradient, the least-squares form bounds it from above and is within 2 log K per cell with the most probable units, and the Hessian is the posterior average of the precisions.", "quantifier": "every number of properties, cells and units, all covariance types, weights, maps and models", "why_tests_cant": "Log-sum-exp gradients and bounds hold for a continuum of models and mixtures.", "anchors": ["simpeg/regularization/pgi.py: PGIsmallness.__call__, deriv, deriv2 with approx_eval, approx_gradient, approx_hessian False", "simpeg/utils/pgi_utils.py: WeightedGaussianMixture"]}
{"id": "C132", "title": "Petrophysical smallness over a history of calls and updates", "statement": "Value, gradient and Hessian are those of the current mixture, reference model and model, whatever was evaluated or set before; after an update by the directive the reference model is the mean of the fixed or newly predicted unit of every cell.", "quantifier": "every history of evaluations, updates and settings", "why_tests_cant": "Histories are unbounded; a kept Hessian block is wrong only after particular sequences.", "anchors": ["simpeg/regularization/pgi.py: PGIsmallness", "simpeg/directives/_pgi_directives.py: PGI_UpdateParameters.endIter"]}
{"id": "C133", "title": "Updating a Gaussian mixture with priors", "statement": "Sorting a mixture does not change it; fitted units are matched to the reference units they fit best; updated means, covariances and proportions interpolate between fit and reference according to the confidences, proportions sum to one and covariances stay positive definite.", "quantifier": "every number of units, cells and properties, all confidences and volumes", "why_tests_cant": "Tests fit one synthetic mixture; permutations, confidences and volumes are unbounded.", "anchors": ["simpeg/utils/pgi_utils.py: order_clusters_GM_weight, order_cluster, update_gmm_with_priors, _m_step"]}
{"id": "C134", "title": "Schedule of trade-off and petrophysical weight", "statement": "The trade-off parameter never rises; it is reduced only for lack of progress before the targets are first reached, and afterwards only if a misfit exceeds its target; the petrophysical weight changes only when all targets are met and then grows; limits and tolerance are respected; the directives start exactly if MultiTargetMisfits precedes the schedule; the learned reference model is included in the smoothness when stable.", "quantifier": "every inversion: any number of iterations, misfits and targets, all settings; every list of directives", "why_tests_cant": "The behaviour depends on the whole sequence of misfits.", "anchors": ["simpeg/directives/_pgi_directives.py: PGI_BetaAlphaSchedule, PGI_AddMrefInSmooth"]}
{"id": "C135", "title": "Polynomial petrophysical relationships", "statement": "The map applies the polynomial relation to every cell, is the identity by default, and its derivative is the Jacobian, so that the gradient of the smallness in transformed coordinates is correct.", "quantifier": "every pair of polynomials, any number of cells, all models", "why_tests_cant": "Polynomials of every degree and all models; tests take the derivative at one.", "anchors": ["simpeg/maps/_clustering.py: PolynomialPetroClusterMap", "simpeg/regularization/pgi.py: PGIsmallness.deriv (non_linear_relationships)"]}
{"id": "C136", "title": "Layered magnetotelluric impedance solves Maxwell's equations and has exact sensitivities", "statement": "The surface impedance returned for a layered Earth is the ratio of horizontal electric and magnetic field of every plane wave solution of Maxwell's equations that is bounded at depth; it lies in the third quadrant, does not see layers in a uniform Earth and does not change if a layer is split; the returned derivatives with respect to all conductivities and thicknesses are its derivatives.", "quantifier": "every number of layers, all positive conductivities, thicknesses and frequencies", "why_tests_cant": "Tests compare a few models with finite differences or half-space values; the recursion must be right for every number of layers.", "anchors": ["simpeg/electromagnetics/natural_source/simulation_1d.py: Simulation1DRecursive._get_recursive_impedances, _get_recursive_impedances_deriv"]}
{"id": "C137", "title": "Layered magnetotelluric data, sensitivities and stored results", "statement": "Predicted data are those of every receiver at the frequency of its source, in survey order; Jvec is the product with their Jacobian, Jtvec with its transpose and getJtJdiag the diagonal of J^T W^2 J, for every component, map and history of calls; the number of data is that of the survey.", "quantifier": "every survey, number of layers, map, model and history of calls", "why_tests_cant": "Surveys and histories are unbounded; stored results are wrong only after particular sequences.", "anchors": ["simpeg/electromagnetics/natural_source/simulation_1d.py: Simulation1DRecursive.dpred, getJ, getJtJdiag, Jvec, Jtvec, _delete_on_model_update"]}
{"id": "C138", "title": "Characteristic decay of viscous remanence matches the transmitter waveform", "statement": "For every waveform the characteristic decay at off-time channels is the superposition of the decays of the steps and ramps of the whole normalised current; rates (dhdt, dbdt) are time derivatives of the fields (h, b), b is mu0 times h; channels that are not in the off-time are refused; the waveform of a simulation can be any of the documented classes.", "quantifier": "every waveform (step, pulse, arbitrary, discretised), field type and set of channels", "why_tests_cant": "Waveforms are arbitrary sequences of samples; tests fix a few shapes and compare against stored numbers.", "anchors": ["simpeg/electromagnetics/viscous_remanent_magnetization/waveforms.py: StepOff, SquarePulse, ArbitraryDiscrete, ArbitraryPiecewise, Custom: getCharDecay"]}
{"id": "C139", "title": "Log-uniform decay is the average of exponential relaxations, and the linear problem approximates it", "statement": "The log-uniform decay after a step or pulse is the mean over log-uniformly distributed relaxation times of exponential decays (or its rate), and the characteristic decay times dchi/log(tau2/tau1) approximates it with an error bound in t/tau2 and tau1/t; channels must be in the off-time.", "quantifier": "all relaxation ranges, susceptibilities, pulse widths and channels", "why_tests_cant": "An identity between an exponential integral formula and an integral over relaxation times, for real parameters.", "anchors": ["simpeg/electromagnetics/viscous_remanent_magnetization/waveforms.py: StepOff.getLogUniformDecay, SquarePulse.getLogUniformDecay"]}
{"id": "C140", "title": "Inducing fields and refinement of sources of viscous remanence", "statement": "The inducing field of a dipole is the gradient of the dipole potential and free of divergence, that of a line current the law of Biot and Savart summed over its wires, at every location off the wires; the refinement level of a cell is the number of levels whose distance contains it, with distance measured to the dipole, the loop or the nearest point of the wires.", "quantifier": "all sources, orientations, locations and refinement distances", "why_tests_cant": "Identities over all locations and orientations; degenerate positions (in line with a wire, centre of a loop) are not sampled.", "anchors": ["simpeg/electromagnetics/viscous_remanent_magnetization/sources.py: MagDipole, CircLoop, LineCurrent: getH0, _getRefineFlags"]}
{"id": "C141", "title": "Response of magnetized cells in viscous remanence is the field of the dipoles of the cell", "statement": "The response of a receiver to a cell magnetized along an axis is the integral of the dipole field over the cell (exactly across axes, up to the stated regularisation along an axis), symmetric in receiver and magnetization and free of trace outside the cell; splitting a cell into refined cells does not change the response to a uniform inducing field; loop receivers integrate over their area with quadratures of the announced order.", "quantifier": "all receivers off the planes of the cell faces, all cells, orientations, refinement levels and quadrature orders", "why_tests_cant": "Identity between closed formulas and volume integrals for all positions; tests compare few positions with numerical dipoles.", "anchors": ["simpeg/electromagnetics/viscous_remanent_magnetization/simulation.py: BaseVRMSimulation._getGeometryMatrix, _getH0matrix, _getSubsetAcolumns"]}
{"id": "C142", "title": "Predicted data of viscous remanence follow the survey's order, active channels and sensitivities", "statement": "Data of both simulations come by source, receiver, location and channel, each the decay at its channel applied to the response of its receiver; active channels select exactly their data and the survey's number of data is the number of predicted data; Jvec is the derivative of dpred and Jtvec its adjoint; matrices follow changes of cells, refinement and survey.", "quantifier": "all surveys (sources, receivers, locations, channels), masks, maps and histories of calls", "why_tests_cant": "Orders of stacked Kronecker blocks for arbitrary surveys; histories of setters and uses are unbounded.", "anchors": ["simpeg/electromagnetics/viscous_remanent_magnetization/simulation.py: BaseVRMSimulation.dpred, Simulation3DLinear.A, T, fields, Jvec, Jtvec, Simulation3DLogUniform.A, fields", "simpeg/electromagnetics/viscous_remanent_magnetization/survey.py: SurveyVRM.__init__, set_active_interval, nD"]}
{"id": "C143", "title": "Hankel coefficients of layered electromagnetic simulations describe the source and the receiver", "statement": "For every source and receiver, the factors of J0 and J1 that the layered simulations use are, for each wave number, those of the secondary field of that source along the orientation of that receiver: image dipoles for magnetic dipoles, the sum of dipoles over the area for circular loops, the quadrature of the wire for line currents; the damping height is the way down from the source and up to the receiver.", "quantifier": "all moments, orientations, offsets, heights, wave numbers, loop radii and wires", "why_tests_cant": "Identity of closed formulas for all directions and wave numbers; tests use axis-aligned receivers.", "anchors": ["simpeg/electromagnetics/base_1d.py: BaseEM1DSimulation._compute_hankel_coefficients"]}
{"id": "C144", "title": "Data, sensitivities and stored coefficients of layered electromagnetic simulations belong together", "statement": "Predicted data come in the survey's order with the receiver's component and units; getJ is the Jacobian of the predicted data for every mapped property, Jvec and Jtvec are its products and adjoint to each other, getJtJdiag is the diagonal of the weighted product; coefficients of Hankel transforms always belong to the current survey and filter.", "quantifier": "all surveys, layers, spectra, maps, weights and histories of changes", "why_tests_cant": "Derivatives and stacking orders hold for every survey and model; histories of setters are unbounded.", "anchors": ["simpeg/electromagnetics/frequency_domain/simulation_1d.py: Simulation1DLayered.dpred, fields, getJ, _project_to_data", "simpeg/electromagnetics/time_domain/simulation_1d.py: Simulation1DLayered.dpred, fields, getJ, _project_to_data", "simpeg/electromagnetics/base_1d.py: BaseEM1DSimulation.Jvec, Jtvec, getJtJdiag"]}
{"id": "C145", "title": "Complex conductivities and permeabilities of layers follow their relaxation models", "statement": "The complex conductivity of a layer is the Pelton model with the layer's own parameters at each frequency: it stays between its limits at zero and infinite frequency with non-negative imaginary part; the log-uniform susceptibility is the mean of Debye relaxations over the distribution of times; numbers apply to all layers and arrays by layer.", "quantifier": "all conductivities, chargeabilities, times, exponents, frequencies, numbers of layers and combinations of numbers and arrays", "why_tests_cant": "Bounds and an integral identity over continuous parameters; broadcasting cases depend on equal lengths.", "anchors": ["simpeg/electromagnetics/base_1d.py: BaseEM1DSimulation.compute_complex_sigma, compute_complex_mu", "simpeg/electromagnetics/utils/em1d_utils.py: ColeCole, LogUniform"]}
{"id": "C146", "title": "Recommended layers reach the depth and the transform to the time domain uses every filter point", "statement": "The recommended thicknesses start with the smallest one, grow by a constant factor and reach the required depth, and the computation ends; the frequencies of the time-domain layered simulation contain every filter point at every spline time, the spline times cover all needed times, the datum of a step-off waveform is the cosine transform of the spectrum at the spline times, and that of another waveform minus the integral of the rate of the current times the step response over the past.", "quantifier": "all numbers of layers, thicknesses, depths, log-uniform filters, ranges of times, spectra and waveforms", "why_tests_cant": "Termination and index alignment for unbounded ranges of times; tests run fixed surveys.", "anchors": ["simpeg/electromagnetics/utils/em1d_utils.py: get_vertical_discretization, get_vertical_discretization_frequency, get_vertical_discretization_time, get_splined_dlf_points", "simpeg/electromagnetics/time_domain/simulation_1d.py: Simulation1DLayered._compute_coefficients"]}
{"id": "C147", "title": "Layered resistivity data are those of the potential over a layered Earth", "statement": "For every layered Earth the wave number potential that the 1D resistivity simulation uses is the ratio of potential and current density at the surface of the bounded solution of Ohm's law and charge conservation; it lies between the smallest and the largest resistivity and its sensitivities are its derivatives. Each datum is the superposition of the filtered potential over all current electrodes with their currents and both potential electrodes, divided by the geometric factor of the datum for apparent resistivities; exchanging source and receiver does not change a datum; data and matrices always belong to the current survey, filter and model.", "quantifier": "all numbers of layers, resistivities, thicknesses, wave numbers, electrode positions, filters, maps and histories of calls", "why_tests_cant": "Induction over layers and an ODE; tests compare a few models with the analytic half-space; histories of setters are unbounded.", "anchors": ["simpeg/electromagnetics/static/resistivity/simulation_1d.py: _phi_tilde, _dphi_tilde, Simulation1DLayers._compute_hankel_coefficients, dpred, getJ"]}
{"id": "C148", "title": "A meta-simulation on a cluster gives the results of the serial one for every schedule", "statement": "For every distribution of members over workers and every order in which tasks run, dpred, Jvec, Jtvec and getJtJdiag of the cluster simulations equal those of the serial simulations; reductions use every item once; each member is assigned to one worker that holds it, the one with the smallest load.", "quantifier": "all numbers of members, distributions over workers, schedules and sequences of calls", "why_tests_cant": "Schedules cannot be enumerated; tests use one cluster with two workers.", "anchors": ["simpeg/meta/dask_sim.py: _reduce, _validate_type_or_future_of_type, _calc_dpred, DaskMetaSimulation, DaskSumMetaSimulation, DaskRepeatedSimulation"]}
{"id": "C149", "title": "Layers of equivalent sources give the data of their prisms with every engine and mode", "statement": "A simulation with a layer of equivalent sources predicts, in the documented order of receivers, locations and components, the data of the prisms between the given elevations over the active cells of the plane mesh, for gravity, for susceptibilities and for vector models; both engines agree; forward modelling, stored sensitivities, products with their transpose and the diagonal of the squared sensitivities belong to one matrix, in serial and in parallel for every way to share receivers among threads. Elevations are numbers or one value per active cell, the top above the bottom; anything else is refused.", "quantifier": "all plane meshes, active cells, elevations, receivers, components, models, vectors, weights and thread schedules", "why_tests_cant": "Twenty kernel loops with index arithmetic over three blocks of columns; tests compare a few small meshes; thread schedules cannot be enumerated.", "anchors": ["simpeg/potential_fields/base.py: BaseEquivalentSourceLayerSimulation", "simpeg/potential_fields/gravity/simulation.py: SimulationEquivalentSourceLayer", "simpeg/potential_fields/magnetics/simulation.py: SimulationEquivalentSourceLayer", "simpeg/potential_fields/gravity/_numba/_2d_mesh.py", "simpeg/potential_fields/magnetics/_numba/_2d_mesh.py", "simpeg/potential_fields/_numba_utils.py: evaluate_kernels_on_cell, evaluate_six_kernels_on_cell"]}
{"id": "C150", "title": "Depth weights and distance weights are the normalised documented weights", "statement": "depth_weighting and distance_weighting return, for the active cells in order, numbers in (0, 1] of which one is 1: the documented inverse power of the vertical distance to the height of the horizontally nearest reference location, or the root of the summed inverse powers of the distances to all reference locations, divided by the largest of them. Weights decrease with distance; the default threshold is half of the smallest cell width; both engines, every order of the parallel loop and every order of the reference locations give the same weights; wrong arguments are refused.", "quantifier": "all meshes, masks, reference locations, exponents, thresholds, engines and schedules of the parallel loop; all ways to break ties", "why_tests_cant": "Tests compare a few meshes and exponents with the same formula; schedules and ties cannot be enumerated, and cells at the reference height are not tried.", "anchors": ["simpeg/utils/model_utils.py: depth_weighting", "simpeg/utils/model_utils.py: _distance_weighting_numba", "simpeg/utils/model_utils.py: distance_weighting"]}
{"id": "C151", "title": "The layer of cells under the topography is one cell per column", "statement": "surface_layer_index marks in every column of a tensor mesh exactly one cell: the one which lies the requested number of layers under the layer whose centre is closest to the height of the horizontally nearest topography point. If the mesh does not reach that far down the call fails; cells found for index 0 are below the topography; topography with columns [x, z] can be used with meshes of two dimensions.", "quantifier": "all tensor meshes of three dimensions, topographies, layer numbers and ways to break ties", "why_tests_cant": "Only one mesh with flat cells is tried in the tests of the function; the outcome depends on how searches break ties and on cell sizes.", "anchors": ["simpeg/utils/model_utils.py: surface_layer_index"]}
{"id": "C152", "title": "The spherical system map gives the components of vectors and its derivative", "statement": "SphericalSystem turns an array of amplitudes, elevations and azimuths into the array of the Cartesian components of the same vectors; arrays of other lengths are refused; made with a mesh it takes three values per cell. deriv gives the Jacobian at the array passed to it, whatever the values and whatever was evaluated before.", "quantifier": "all arrays of angles and amplitudes, all numbers of cells, all histories of evaluations and in-place changes", "why_tests_cant": "Derivative tests start from random angles in one range and make one map per test; angles outside the ranges and arrays changed in place are not covered.", "anchors": ["simpeg/maps/_base.py: SphericalSystem"]}
{"id": "C153", "title": "Maps between meshes average by volume, and complex maps combine halves of the model", "statement": "TileMap gives in each local cell touched by active global cells their volume average, component by component, and conserves the volume integral; constant models stay constant; local_active marks the local cells that contain centres of active global cells. Mesh2Mesh interpolates between the meshes and active cells it holds at the time of use. ComplexMap combines the halves of a model into complex numbers, its derivative is the same operation, and the adjoint returns the real and imaginary parts.", "quantifier": "all nested meshes, masks, volumes, numbers of components and models; all histories of assignments; all complex vectors", "why_tests_cant": "Tests cover one tile geometry with whole cells active, one pair of meshes that is never reassigned, and the derivative of ComplexMap at random vectors.", "anchors": ["simpeg/maps/_base.py: TileMap", "simpeg/maps/_injection.py: Mesh2Mesh", "simpeg/maps/_property_maps.py: ComplexMap"]}
{"id": "C154", "title": "Potential field data written to UBC files are read back", "statement": "Reading a file written by write_mag3d_ubc, write_grav3d_ubc or write_gg3d_ubc gives the locations, components, data and uncertainties of the object, up to the printed digits, with the signs and axes of SimPEG; writing leaves the object unchanged and can be repeated; what the format cannot hold is refused; readers return or fail for every file.", "quantifier": "all data objects with one receiver object: any numbers of locations and components, any values including missing ones; all files", "why_tests_cant": "Tests write and read one file with random data each; zero data, other components, second writes and truncated files are not tried, and a reader that does not return cannot be tested by its result.", "anchors": ["simpeg/utils/io_utils/io_utils_pf.py: read_mag3d_ubc", "simpeg/utils/io_utils/io_utils_pf.py: write_mag3d_ubc", "simpeg/utils/io_utils/io_utils_pf.py: read_grav3d_ubc", "simpeg/utils/io_utils/io_utils_pf.py: write_grav3d_ubc", "simpeg/utils/io_utils/io_utils_pf.py: read_gg3d_ubc", "simpeg/utils/io_utils/io_utils_pf.py: write_gg3d_ubc"]}
{"id": "C155", "title": "Surveys made from electrode locations keep every datum", "statement": "generate_survey_from_abmn_locations makes one source for each pair of current electrodes; each row of electrodes becomes one datum of the survey with its own electrodes, poles where both electrodes of a pair coincide; the sorting it returns is a permutation of the rows that puts data into the order of the survey; missing arguments are refused.", "quantifier": "all arrays of electrode locations, in any dimension, any order of rows, repeated sources, poles and dipoles mixed, coordinates of any size", "why_tests_cant": "Tests use one regular line with small coordinates; coordinates of national grids, sources that nearly coincide and interleaved rows are not tried.", "anchors": ["simpeg/electromagnetics/static/utils/static_utils.py: generate_survey_from_abmn_locations"]}
{"id": "C156", "title": "Tables of resistivity data are read by their headers and read back after writing", "statement": "read_dcip_xyz gives the electrodes, data, uncertainties and further columns that stand below the given headers, in the order of the survey; headers that are missing are refused; a file written by write_dcip_xyz is read back with all its columns up to the printed digits.", "quantifier": "all files with a line of headers, any order of columns, any number of rows, all choices of columns, lines and areas, with and without elevations", "why_tests_cant": "Tests read a file that was just written, with all its columns in order; files with other columns or another order are not tried.", "anchors": ["simpeg/utils/io_utils/io_utils_electromagnetics.py: read_dcip_xyz", "simpeg/utils/io_utils/io_utils_electromagnetics.py: write_dcip_xyz"]}
{"id": "C157", "title": "Resistivity data written to UBC block files are read back", "statement": "Reading a file written by write_dcip2d_ubc or write_dcip3d_ubc in the general or surface format gives the sources, receivers, data and uncertainties of the object, up to the printed digits and with elevation 9999 for surface files; poles stay poles and dipoles stay dipoles; writing leaves the data object unchanged.", "quantifier": "all surveys of pole and dipole sources and receivers in two and three dimensions, any number of receivers per source, any values and coordinates, all three types of files", "why_tests_cant": "Tests write and read surveys of one kind of source and receiver; mixtures of poles and dipoles, several receivers per source, large coordinates and negative apparent resistivities are not tried.", "anchors": ["simpeg/utils/io_utils/io_utils_electromagnetics.py: read_dcip2d_ubc", "simpeg/utils/io_utils/io_utils_electromagnetics.py: read_dcip3d_ubc", "simpeg/utils/io_utils/io_utils_electromagnetics.py: write_dcip2d_ubc", "simpeg/utils/io_utils/io_utils_electromagnetics.py: write_dcip3d_ubc"]}
{"id": "C158", "title": "Primary fields of plane waves solve the layered problem, and total fields solve that of the model", "statement": "primary_e_1d_solution and primary_h_1d_solution return, on the nodes of the vertical mesh, the only discrete field with the requested value or flux at the top and decay below; its amplitude decreases with depth. The total field, primary plus secondary, satisfies the equations of the model's conductivity wherever the primary field satisfies those of the primary conductivity, whichever primary model, frequency and mesh the source is used with.", "quantifier": "all meshes, conductivities, frequencies, boundary conditions and amounts of padding; all primary models; all histories of uses of a source", "why_tests_cant": "Tests compare a few half-spaces and layered models with analytic fields within a tolerance; existence, uniqueness and monotone decay concern every model, and sources kept across simulations or frequencies are not tried.", "anchors": ["simpeg/electromagnetics/natural_source/utils/source_utils.py: primary_e_1d_solution", "simpeg/electromagnetics/natural_source/utils/source_utils.py: primary_h_1d_solution", "simpeg/electromagnetics/natural_source/sources.py: PlanewaveXYPrimary"]}
{"id": "C159", "title": "Analytic plane wave fields and impedances of a layered Earth", "statement": "getEHfields returns, at every place, the down-going and up-going parts of fields that satisfy Maxwell's equations with displacement current in every cell and in the half-space below, are continuous and bounded, with down-going electric field scaleValue at the top when scaled; getImpedance is the ratio of the total fields at the top for every field of a source above, and agrees with the recursive simulation.", "quantifier": "all numbers of layers, positive thicknesses and conductivities, frequencies, permittivities and places", "why_tests_cant": "Tests compare the functions with each other on a few models; the differential equations and the continuity are statements about all places and the boundedness about an infinite half-space.", "anchors": ["simpeg/electromagnetics/natural_source/utils/analytic_1d.py: getEHfields", "simpeg/electromagnetics/natural_source/utils/analytic_1d.py: getImpedance"]}
{"id": "C160", "title": "Analytic gravity and magnetic fields of spheres satisfy the field equations", "statement": "GravSphereFreeSpace returns the gradient of the potential of attraction of a homogeneous ball, inside, on and outside of it, and GravityGradientSphereFreeSpace the derivatives of that gravity. MagSphereAnaFun, MagSphereAnaFunA and MagSphereFreeSpace return fields whose flux is continuous across the surface of the sphere and whose magnetic field is continuous along it, with a potential and no sources elsewhere; total is primary plus secondary, the functions agree where their ranges overlap, and CongruousMagBC returns the field of the sphere of equal volume at the centre of the magnetic moment.", "quantifier": "all radii, centres, densities, permeabilities, susceptibilities, inducing fields, and all places; all meshes of cells", "why_tests_cant": "These functions are what tests compare simulations with, at a few places and within per cents; whether they solve the field equations concerns every place, and derivatives and conditions at surfaces cannot be evaluated by a test.", "anchors": ["simpeg/potential_fields/gravity/analytics.py: GravSphereFreeSpace", "simpeg/potential_fields/gravity/analytics.py: GravityGradientSphereFreeSpace", "simpeg/potential_fields/magnetics/analytics.py: MagSphereAnaFun", "simpeg/potential_fields/magnetics/analytics.py: MagSphereAnaFunA", "simpeg/potential_fields/magnetics/analytics.py: MagSphereFreeSpace", "simpeg/potential_fields/magnetics/analytics.py: CongruousMagBC", "simpeg/potential_fields/magnetics/analytics.py: IDTtoxyz"]}
{"id": "C161", "title": "Analytic DC potentials solve the equation of the electric current and fit the survey's geometric factors", "statement": "DCAnalytic_Pole_Pole and its dipole variants return voltages that are the current times the resistivity times the survey's geometric factor, are unchanged when current and potential electrodes are exchanged, and derive from a potential whose current density is outward with the whole current through every sphere (half sphere) around the electrode. DCAnalyticSphere returns potentials continuous across the sphere with continuous current up to the order of the expansion; total is primary plus secondary.", "quantifier": "all places of electrodes, conductivities, currents, radii, orders of the expansion and places", "why_tests_cant": "Tests use these functions as the reference, at a few electrodes on the surface; that the reference solves the equation is a statement about all places and about derivatives.", "anchors": ["simpeg/electromagnetics/analytics/DC.py: DCAnalytic_Pole_Pole", "simpeg/electromagnetics/analytics/DC.py: DCAnalytic_Pole_Dipole", "simpeg/electromagnetics/analytics/DC.py: DCAnalytic_Dipole_Pole", "simpeg/electromagnetics/analytics/DC.py: DCAnalytic_Dipole_Dipole", "simpeg/electromagnetics/analytics/DC.py: DCAnalyticSphere", "simpeg/electromagnetics/analytics/DC.py: AnBnfun"]}
{"id": "C162", "title": "Analytic transient fields of dipoles satisfy Maxwell's equations", "statement": "TransientMagneticDipoleWholeSpace and TransientElectricDipoleWholeSpace return fields e and h with curl h = sigma e, curl e = -mu dh/dt and div h = 0 away from the dipole; dhdt is the time derivative of h; at early times the fields are the static ones and at late times they fade. hzAnalyticCentLoopT grows with the radius by the field of the dipoles on its rim as hzAnalyticDipoleT gives it, and starts as the field of the loop.", "quantifier": "all places away from the dipole, moments, conductivities, permeabilities and times after switch-off", "why_tests_cant": "The functions are the reference of the tests of the time domain simulations; only one component of some of the fields is compared, within per cents and often in absolute value, and differential equations and limits cannot be evaluated.", "anchors": ["simpeg/electromagnetics/analytics/TDEM.py: TransientMagneticDipoleWholeSpace", "simpeg/electromagnetics/analytics/TDEM.py: TransientElectricDipoleWholeSpace", "simpeg/electromagnetics/analytics/TDEM.py: hzAnalyticDipoleT", "simpeg/electromagnetics/analytics/TDEM.py: hzAnalyticCentLoopT"]}
{"id": "C163", "title": "Analytic harmonic fields of dipoles satisfy Maxwell's equations with displacement current", "statement": "MagneticDipoleWholeSpace and ElectricDipoleWholeSpace return fields e and h with curl e = -i w mu h, curl h = (sigma + i w eps) e and div h = 0 away from the dipole; b is mu h; the fields are the static ones at zero frequency and decay exponentially with distance otherwise. hzAnalyticDipoleF tends to the field of the dipole in free space at low frequencies, and its secondary field to zero.", "quantifier": "all places away from the dipole, moments, conductivities, permittivities, permeabilities and frequencies", "why_tests_cant": "Tests compare the functions with simulations on coarse meshes at low frequencies, where displacement currents are too small to be seen; differential equations and limits cannot be evaluated.", "anchors": ["simpeg/electromagnetics/analytics/FDEM.py: MagneticDipoleWholeSpace", "simpeg/electromagnetics/analytics/FDEM.py: ElectricDipoleWholeSpace", "simpeg/electromagnetics/analytics/FDEM.py: hzAnalyticDipoleF"]}
{"id": "C164", "title": "Galvanic and inductive parts of the field of a harmonic electric dipole", "statement": "E_from_ElectricDipoleWholeSpace is the sum of the galvanic part, which is the gradient of the divergence of the vector potential over the admittivity, and of the inductive part, which is -i w mu times the vector potential; with H, the curl of the vector potential A, it satisfies Maxwell's equations with displacement current; J is sigma E and B is mu H; the fields of all places are returned in order for each orientation, and several places with several frequencies are refused.", "quantifier": "all places away from the dipole, orientations, moments, conductivities, permittivities, permeabilities, frequencies and lists of places", "why_tests_cant": "The repository has no test of H, A, J, B or of the parts; sums of closed formulas at some places cannot show differential equations everywhere.", "anchors": ["simpeg/electromagnetics/analytics/FDEMDipolarfields.py: E_from_ElectricDipoleWholeSpace", "simpeg/electromagnetics/analytics/FDEMDipolarfields.py: E_galvanic_from_ElectricDipoleWholeSpace", "simpeg/electromagnetics/analytics/FDEMDipolarfields.py: E_inductive_from_ElectricDipoleWholeSpace", "simpeg/electromagnetics/analytics/FDEMDipolarfields.py: J_from_ElectricDipoleWholeSpace", "simpeg/electromagnetics/analytics/FDEMDipolarfields.py: H_from_ElectricDipoleWholeSpace", "simpeg/electromagnetics/analytics/FDEMDipolarfields.py: B_from_ElectricDipoleWholeSpace", "simpeg/electromagnetics/analytics/FDEMDipolarfields.py: A_from_ElectricDipoleWholeSpace"]}
{"id": "C165", "title": "Fields of a magnetic dipole in a cased well", "statement": "The wave number k of the electromagnetic utilities is the root of w^2 mu eps - i w mu sigma whose waves travel outwards and decay. The fields getCasingHrMagDipole, getCasingHzMagDipole and getCasingEphiMagDipole satisfy Maxwell's equations with displacement current in the formation; the derivatives of the Hertz potential they are made of are its derivatives; the casing attenuates, and without thickness the field is that of the dipole in the formation; B is mu H.", "quantifier": "all places away from the dipole, radii, conductivities, permeabilities, permittivities and positive frequencies", "why_tests_cant": "The tests difference the potential at some places; they call the functions with arrays of one size only, and differential equations cannot be evaluated.", "anchors": ["simpeg/electromagnetics/analytics/FDEMcasing.py: getKc", "simpeg/electromagnetics/analytics/FDEMcasing.py: _getCasingHertzMagDipole", "simpeg/electromagnetics/analytics/FDEMcasing.py: _getCasingHertzMagDipoleDeriv_r", "simpeg/electromagnetics/analytics/FDEMcasing.py: _getCasingHertzMagDipoleDeriv_z", "simpeg/electromagnetics/analytics/FDEMcasing.py: _getCasingHertzMagDipole2Deriv_z_r", "simpeg/electromagnetics/analytics/FDEMcasing.py: _getCasingHertzMagDipole2Deriv_z_z", "simpeg/electromagnetics/analytics/FDEMcasing.py: getCasingEphiMagDipole", "simpeg/electromagnetics/analytics/FDEMcasing.py: getCasingHrMagDipole", "simpeg/electromagnetics/analytics/FDEMcasing.py: getCasingHzMagDipole", "simpeg/electromagnetics/analytics/FDEMcasing.py: getCasingBrMagDipole", "simpeg/electromagnetics/analytics/FDEMcasing.py: getCasingBzMagDipole", "simpeg/electromagnetics/utils/waveform_utils.py: k"]}
{"id": "C166", "title": "Impedances of a layered Earth by propagation of waves", "statement": "MT_LayeredEarth returns for each frequency, in order, the ratio of the electric and magnetic fields at the surface of the layered Earth (layers from top to bottom, the last one without bottom), or the apparent resistivity and phase of that ratio; this holds for permeabilities, permittivities and parameters of chargeable layers as documented; thicknesses that do not fit are refused.", "quantifier": "all numbers of layers, thicknesses, positive conductivities, permittivities and frequencies, and all fields of a source above the Earth", "why_tests_cant": "The function is a reference for other tests; it is called with a few models without the optional arguments, and that a number is the ratio for every solution of the differential equations cannot be evaluated.", "anchors": ["simpeg/electromagnetics/analytics/NSEM.py: MT_LayeredEarth", "simpeg/electromagnetics/analytics/NSEM.py: _Propagate", "simpeg/electromagnetics/analytics/NSEM.py: _P", "simpeg/electromagnetics/analytics/NSEM.py: _Pinv", "simpeg/electromagnetics/analytics/NSEM.py: _Tinv", "simpeg/electromagnetics/analytics/NSEM.py: _ImpZ", "simpeg/electromagnetics/analytics/NSEM.py: _PCC"]}
{"id": "C167", "title": "Record arrays of natural source data", "statement": "Data of impedance and tipper receivers written as a record array and read back give the same readings: every frequency, receiver, component, location and value appears once again and nothing is added, for the form with real and imaginary parts and for the complex form; the sources of the data read back are the frequencies of the table, each once, in decreasing order or as found.", "quantifier": "all lists of sources, receivers, locations and values, with missing values, in both forms", "why_tests_cant": "The tests convert one survey with full impedance tensors at common locations; the loss of data depends on the combination of receivers, parts, locations and missing values.", "anchors": ["simpeg/electromagnetics/natural_source/survey.py: Data.toRecArray", "simpeg/electromagnetics/natural_source/survey.py: Data.fromRecArray", "simpeg/electromagnetics/natural_source/survey.py: rec_to_ndarr"]}
{"id": "C168", "title": "Utilities for natural source data", "statement": "Rotating data by an angle replaces each impedance tensor by the one measured in turned coordinates, for every survey, keeps frequencies and locations, and rotating by two angles is rotating by their sum; extracted lists of data, frequencies and names of receivers run in parallel; resampling returns the readings asked for; converting to one-dimensional data keeps the readings of the named entry; apparent resistivity, phase and skin depth are those of a half-space.", "quantifier": "all data sets, angles, tensors, subsets asked for, and half-spaces", "why_tests_cant": "The utilities are not called by tests, or with one data set; that no data are lost or mixed up is a statement about all data sets.", "anchors": ["simpeg/electromagnetics/natural_source/utils/data_utils.py: rotate_data", "simpeg/electromagnetics/natural_source/utils/data_utils.py: extract_data_info", "simpeg/electromagnetics/natural_source/utils/data_utils.py: resample_data", "simpeg/electromagnetics/natural_source/utils/data_utils.py: convert3Dto1Dobject", "simpeg/electromagnetics/natural_source/utils/data_utils.py: appResPhs", "simpeg/electromagnetics/natural_source/utils/data_utils.py: skindepth"]}
{"id": "C169", "title": "Import of EDI files", "statement": "The importer finds for each requested component exactly the numbers of its block of the file, whatever is before and after it, and refuses files in which it is missing or too short; the records hold the impedances in SI units in coordinates with x to the east, the variances of these impedances, and the locations written in the file, for any list of components.", "quantifier": "all files, blocks, numbers of frequencies, components, impedances and locations in degrees, minutes and seconds", "why_tests_cant": "The tests import a few files at one place with the default components; other layouts, places near the equator or the meridian, and other components are not tried.", "anchors": ["simpeg/electromagnetics/natural_source/utils/edi_files_utils.py: EDIimporter.importFiles", "simpeg/electromagnetics/natural_source/utils/edi_files_utils.py: _findEDIcomp", "simpeg/electromagnetics/natural_source/utils/edi_files_utils.py: _findLatLong"]}
{"id": "C170", "title": "Counters and timers of method calls", "statement": "After any execution of counted and timed methods the counter shows for each method the number of its calls, and for each timed method the durations of its calls, hence their sum and mean; this holds with nested and recursive calls, with calls of several threads, and when calls end with exceptions; methods of different classes are kept apart.", "quantifier": "all executions (trees of calls with any readings of the clock), all interleavings of starts and stops, all names", "why_tests_cant": "The test calls methods in a loop; recursion, exceptions and interleavings have unboundedly many shapes.", "anchors": ["simpeg/utils/counter_utils.py: Counter", "simpeg/utils/counter_utils.py: count", "simpeg/utils/counter_utils.py: timeIt"]}
{"id": "C171", "title": "Reading triangulated surfaces and downloading files", "statement": "Reading a GOCAD surface ends for every file, and returns the coordinates of all vertices and the corners of all triangles in their order; downloading stores what each URL delivers under the returned path in the folder, and with overwrite=False changes no file that exists.", "quantifier": "all files (any lines before, between and after the lists, any numbers of vertices and triangles), all lists of URLs and all contents of the folder", "why_tests_cant": "No test reads a surface with properties, several parts, or missing lines, and a test cannot observe that a loop never ends; downloads need the network.", "anchors": ["simpeg/utils/io_utils/io_utils_general.py: read_GOCAD_ts", "simpeg/utils/io_utils/io_utils_general.py: download"]}
{"id": "C172", "title": "Input files of gravity and magnetic inversions are read as written, and the models of the driver fit its active cells whatever is asked first", "statement": "For every input file in the documented format (with any comments) the driver holds exactly the file names, values and defaults of the file. Active cells are those below the topography, those where the starting model has not the given value, or those not marked zero in the given file. For every order of questions, repeated or not, the driver answers with the same active cells, number of cells, starting model, reference model, static and dynamic cells; models have one entry per active cell, and every active cell is static or dynamic but not both.", "quantifier": "all input files in the documented format with any comments, both drivers, all meshes, model files and topographies, all sequences of questions to a driver", "why_tests_cant": "Files, comments and orders of questions are unbounded, the answers are cached and depend on one another; a test asks in one order for one file.", "anchors": ["simpeg/utils/drivers/gravity_driver.py:GravityDriver_Inv", "simpeg/utils/drivers/magnetics_driver.py:MagneticsDriver_Inv"]}
{"id": "C173", "title": "Tables of electrodes become surveys whose readings keep their data, and meshes that contain all electrodes", "statement": "For every table of electrode locations and data, the survey made from it has exactly the readings of the table, one source per pair of current electrodes; the reordered locations and data of the object belong to the readings of the survey one by one, and writing and reading again changes nothing. Voltages, apparent resistivities and conductivities, IP voltages and chargeabilities computed from the data are those of the ground that was measured whatever kind of data was given. The mesh made for the survey contains all electrodes in its core, ends at the highest point and reaches below the lowest one by the depth of the pseudo-section.", "quantifier": "all tables (any number, order and repetition of rows), all kinds of surveys and data, all electrode locations and topographies, all cell sizes and paddings", "why_tests_cant": "Tests use a few regular arrays already in order; the grouping has to hold for every order and repetition, the mesh for every geometry.", "anchors": ["simpeg/electromagnetics/static/resistivity/IODC.py:IO.from_abmn_locations_to_survey", "simpeg/electromagnetics/static/resistivity/IODC.py:IO.set_mesh", "simpeg/electromagnetics/static/resistivity/IODC.py:IO.voltages", "simpeg/electromagnetics/static/resistivity/IODC.py:IO.write_to_csv", "simpeg/electromagnetics/static/resistivity/IODC.py:IO.read_dc_data_csv", "simpeg/utils/mat_utils.py:unique_rows"]}
{"id": "C174", "title": "Surveys along a line have the requested arrays, spacings and separations, on the line and between its end points", "statement": "For every line (two end points), spacing, separation, limit on the receivers and topography: the generated sources are at the stations of the line one spacing apart, dipoles have the requested length, every source has all receivers of the requested array that fit on the line up to the limit, electrodes lie on the line between its end points on the topography, no reading is repeated, for each of the four arrays, gradient arrays, all data types and both dimensions as documented.", "quantifier": "all end points, spacings, separations, limits, topographies, arrays, data types and dimensions", "why_tests_cant": "Tests generate one or two lines from left to right; counts depend on roundings for every length and spacing.", "anchors": ["simpeg/electromagnetics/static/utils/static_utils.py:generate_dcip_sources_line", "simpeg/electromagnetics/static/utils/static_utils.py:generate_dcip_survey"]}
{"id": "C175", "title": "Line numbers of a survey change exactly where a new line begins", "statement": "For every survey, the assigned numbers start at zero and grow by at most one; sources on a straight line have one number, whatever their order and direction, and a source on another line gets a new number; poles as well as dipoles are numbered.", "quantifier": "all surveys: any number of sources, any positions, poles and dipoles", "why_tests_cant": "The loop carries two reference points over unboundedly many sources; wrong numbering shows for particular geometries only.", "anchors": ["simpeg/electromagnetics/static/utils/static_utils.py:xy_2_lineID", "simpeg/electromagnetics/static/utils/static_utils.py:r_unit"]}
{"id": "C176", "title": "Serial and parallel loops of gravity and magnetics apply one and the same matrix", "statement": "For every set of receivers and cells, scalar and vector models, and every order in which a parallel machine treats the receivers: fields computed without a matrix equal the stored matrix times the model, products with the transpose computed without a matrix equal those of the stored matrix whether serial or parallel and however receivers are spread over threads, and the diagonal of G^T W G equals that of the stored matrix. Nothing depends on what freshly allocated memory holds. A cell of a mesh given by nodes and a prism with the same corners have the same entries.", "quantifier": "all numbers and positions of receivers and cells, all kernels, fields, models, vectors and weights, all orders of execution and distributions over threads, all contents of uninitialised memory", "why_tests_cant": "Schedules of threads and contents of uninitialised memory cannot be enumerated; tests compare a few sizes on one machine.", "anchors": ["simpeg/potential_fields/magnetics/_numba/_3d_mesh.py:_sensitivity_mag", "simpeg/potential_fields/magnetics/_numba/_3d_mesh.py:_tmi_sensitivity_t_dot_v_parallel", "simpeg/potential_fields/magnetics/_numba/_3d_mesh.py:_diagonal_G_T_dot_G_mag_parallel", "simpeg/potential_fields/magnetics/_numba/_2d_mesh.py:_forward_tmi_derivative", "simpeg/potential_fields/gravity/_numba/_3d_mesh.py:_sensitivity_gravity_t_dot_v_parallel", "simpeg/potential_fields/_numba_utils.py:kernels_in_nodes_to_cell", "simpeg/potential_fields/_numba_utils.py:evaluate_kernels_on_cell"]}
{"id": "C177", "title": "Magnetic fields by finite volumes: equations, sensitivities and what is kept between calls", "statement": "For every mesh, inducing field, permeability and polarization (fixed or mapped, one or both): the fields of the finite volume simulation of magnetics are the only solution of div B = 0 and (B - mu_0 M_r)/mu = H in discrete form, the system can be solved when permeabilities are positive, the polarization is what B exceeds mu_0 H by; products with the sensitivities are the derivative of the data with respect to the model and products with the transpose are their adjoint; data are ordered as in the integral simulation; the result of a call does not depend on the calls before it or on whether sensitivities are stored; a permeability given as a number and by cells gives the same fields.", "quantifier": "all meshes with diagonal inner products of faces, all inducing fields, permeabilities, polarizations, mappings, surveys of components bx, by, bz and tmi, all sequences of calls", "why_tests_cant": "Tests compare a sphere or a block with closed formulas within percents and test derivatives at a few random models; equality for all models, meshes and histories of calls is beyond them.", "anchors": ["simpeg/potential_fields/magnetics/simulation.py:Simulation3DDifferential.fields", "simpeg/potential_fields/magnetics/simulation.py:Simulation3DDifferential._getRHS", "simpeg/potential_fields/magnetics/simulation.py:Simulation3DDifferential._Jvec", "simpeg/potential_fields/magnetics/simulation.py:Simulation3DDifferential._Jtvec", "simpeg/potential_fields/magnetics/simulation.py:Simulation3DDifferential.getJ", "simpeg/potential_fields/magnetics/simulation.py:Simulation3DDifferential._projectFields", "simpeg/potential_fields/magnetics/simulation.py:Simulation3DDifferential._projectFieldsDeriv", "simpeg/potential_fields/magnetics/simulation.py:Simulation3DDifferential._delete_on_model_update", "simpeg/potential_fields/gravity/simulation.py:Simulation3DDifferential.fields", "simpeg/props.py:HasModel.model"]}
{"id": "C178", "title": "Convolution with a waveform is the superposition of step responses", "statement": "For every waveform with time nodes, every step-off response and all times, convolve_with_waveform returns minus the integral over all past times of the rate of the current times the step response; the result is zero before the current changes, depends only on the step response at positive times and is linear in it; a static response gives the loss of current; for ramps and piecewise linear currents it is the sum of slopes times integrals of the step response, for a ramp a mean of the step response; waveforms without nodes are refused with TypeError; no part of the waveform is lost.", "quantifier": "all waveforms of the package with all parameters, all step responses that can be integrated, all lists of times", "why_tests_cant": "Tests compare a few waveforms and times with a layered earth solution to some percents; superposition is a statement about all waveforms, responses and times.", "anchors": ["simpeg/electromagnetics/utils/waveform_utils.py:convolve_with_waveform", "simpeg/electromagnetics/utils/waveform_utils.py:VTEMFun", "simpeg/electromagnetics/time_domain/sources.py:RampOffWaveform.time_nodes", "simpeg/electromagnetics/time_domain/sources.py:TrapezoidWaveform.time_nodes", "simpeg/electromagnetics/time_domain/sources.py:PiecewiseLinearWaveform.time_nodes", "simpeg/electromagnetics/time_domain/sources.py:ExponentialWaveform.time_nodes", "simpeg/electromagnetics/time_domain/sources.py:VTEMWaveform.time_nodes"]}
{"id": "C179", "title": "Pseudo-locations of DC readings are finite, below the ground and depend on the reading only", "statement": "For every DC survey of poles and dipoles pseudo_locations returns one location per reading in the order of the survey, which depends only on the electrodes of this reading, moves with the electrodes, and is the same when source and receiver dipole are exchanged; on flat ground it is midway between the midpoints at half of their distance, for Wenner-like readings at half the separation of the current electrodes; it is finite and below the line between the midpoints on every slope; surveys without receivers or with multipole sources are refused when the location is not defined.", "quantifier": "all surveys, all electrode locations in two and three dimensions, all tolerances", "why_tests_cant": "Tests check stored values of one survey; the claims range over all electrode geometries and slopes.", "anchors": ["simpeg/electromagnetics/static/utils/static_utils.py:pseudo_locations", "simpeg/electromagnetics/static/utils/static_utils.py:electrode_separations"]}
{"id": "C180", "title": "Random models respect their bounds; elliptic models have the given size and direction", "statement": "Every random model that is a number lies between the given bounds and takes both of them; the smoothing kernel matters up to a factor only, and with a non-negative kernel smoothing never leaves the range of the random numbers, also at the ends of the array. An elliptic model has values between 0 and 1, more than one half exactly inside of the ellipsoid with the given diameters, whose first axis is at the given angle from x in two dimensions. Wrong shapes of points of polygons and kernels are reported.", "quantifier": "all shapes, random numbers, kernels, numbers of smoothing passes, bounds; all centres, diameters, slopes, angles and cell centres", "why_tests_cant": "Tests draw some seeds and shapes; they cannot show the bounds for all random numbers and kernels, nor find the degenerate shapes for which the result is not a number.", "anchors": ["simpeg/utils/model_builder.py: create_random_model, create_ellipse_in_wholespace, get_indices_polygon"]}
{"id": "C181", "title": "The nodes of active cells of potential field simulations are those of the mesh", "statement": "For every choice of active cells, the corners of the active cells found through the reduced list of nodes are, in the order of the mesh, the corners these cells have in the mesh; each returned node is a corner of an active cell, no node of the mesh appears twice; with all cells active the shortcut gives what the general way gives. Other kinds of meshes are refused.", "quantifier": "all meshes (nodes, cells with any number of corners) and all masks of active cells", "why_tests_cant": "Tests use a few meshes and masks; an index shifted for one mask gives wrong kernels without any error.", "anchors": ["simpeg/potential_fields/base.py: BasePFSimulation._get_active_nodes"]}
{"id": "C182", "title": "One-dimensional electric fields solve the finite volume equations with the values of the layered Earth at the ends", "statement": "The fields of get1DEfields satisfy the finite volume equation of the electric field at every inner node, they are the only vector which does so with these values at the ends, the value at the top is the amplitude, the value at the bottom is in the ratio of the plane wave field of the layered Earth, and the fields are proportional to the amplitude.", "quantifier": "all meshes with positive widths, positive conductivities, frequencies, amplitudes and permittivities", "why_tests_cant": "Tests compare some models with a tolerance; solvability for every frequency and conductivity, uniqueness and the absence of division by zero need a proof.", "anchors": ["simpeg/electromagnetics/natural_source/utils/solutions_1d.py: get1DEfields"]}
{"id": "C183", "title": "Hooks run once and before the method; what was remembered is recalled in order; keyword arguments and deprecated names", "statement": "Each attribute with the marked name is called exactly once, in the order of the names, before the method (or after it), an error of a hook prevents the method, and the result is that of the method. What an optimization was asked to remember is recalled with one value per iteration, in their order, from the optimization or its parent or the given function; other names are refused and every minimization begins with an empty memory. Keyword arguments are accepted exactly if all are attributes, then they have the given values and all others are unchanged. Deprecated names warn or are refused.", "quantifier": "all sets of attributes, hooks and states, all lists of things to remember and sequences of iterations, all keyword arguments", "why_tests_cant": "The claims range over all histories of iterations and all sets of hooks that users add.", "anchors": ["simpeg/utils/code_utils.py: call_hooks, set_kwargs, hook, requires, deprecate_class, deprecate_property, deprecate_method, deprecate_function", "simpeg/optimization.py: Remember, Minimize.doEndIteration"]}
{"id": "C184", "title": "Models with a map give the product of their current values; receivers are found in a source", "statement": "A model with a map is accepted exactly if its size is that of the map; its product is the one of the map with its current values, also for arrays made from it. The indices of receivers of a source are their places in its list.", "quantifier": "all maps, values and histories of writes and reads; all sources and lists of receivers", "why_tests_cant": "Stale values appear only in histories with writes after reads; the indices of receivers are not used by any test.", "anchors": ["simpeg/models.py: Model", "simpeg/survey.py: BaseSrc.get_receiver_indices, BaseSrc._rxOrder"]}
{"id": "C185", "title": "The linear operator of potential fields with dask is the one of the simulation at hand", "statement": "compute_chunk_sizes ends for every target above one value, its chunks are below the target, cover the matrix, and there are not more of them than needed. The operator has one row per location and component in the order of the survey, whatever the chunks; forward only data are its rows applied to the model; a file written is the matrix and is given back; a file of another simulation is not used.", "quantifier": "all numbers of rows and columns, targets, surveys, chunk formats, storage options and contents of the file", "why_tests_cant": "Stale files appear only when a second simulation finds the file of a first one; the end of the search for chunk sizes ranges over all shapes.", "anchors": ["simpeg/dask/utils.py: compute_chunk_sizes", "simpeg/dask/potential_fields/base.py: dask_linear_operator"]}
{"id": "C186", "title": "Sensitivities and diagonals with dask are those of the model and weights asked for", "statement": "getJtJdiag with dask gives the diagonal of (W J D).T (W J D) for the model and weights of the call, over every sequence of calls, for data and amplitudes; the sums are those without dask; getJ gives the sensitivities of the model of the call; the blocks of columns are all columns in order and have the declared sizes.", "quantifier": "all sequences of calls with any models and weights, all matrices and maps, all numbers of columns and blocks", "why_tests_cant": "The caches are wrong only for histories with more than one model or more than one set of weights; tests make one call per simulation.", "anchors": ["simpeg/dask/potential_fields/gravity/simulation.py: dask_getJtJdiag", "simpeg/dask/potential_fields/magnetics/simulation.py: dask_getJtJdiag", "simpeg/dask/electromagnetics/static/resistivity/simulation.py: dask_getJ, dask_getJtJdiag", "simpeg/dask/electromagnetics/static/induced_polarization/simulation.py: dask_getJtJdiag"]}
{"id": "C187", "title": "The surface of the active cells, draped locations and surveys of parallel lines", "statement": "The surface of a column is the upper face or the centre of its highest active cell, for every mask; draped points keep their order and horizontal location and get the elevation of the nearest column; the nearest place of a grid is the first of the nearest ones; each reading of a survey of parallel lines lies on the line whose number it carries, with the current electrodes shifted by the offset, after any sorting by source, and at the elevation asked for.", "quantifier": "all tensor meshes and masks, all surfaces of tree meshes, all points and grids, all numbers of lines, spacings, offsets and sortings", "why_tests_cant": "Masks with holes, overhangs or empty columns and the sorting of readings range over unboundedly many cases.", "anchors": ["simpeg/electromagnetics/static/utils/static_utils.py: gettopoCC, drapeTopotoLoc, closestPointsGrid, gen_3d_survey_from_2d_lines"]}
{"id": "C188", "title": "The maps of spectral induced polarization give the three properties of all cells", "statement": "For active cells with at least one cell, spectral_ip_mappings gives three maps; applied to the chargeabilities, time constants and frequency dependencies of the active cells one after the other, each as logarithms if so asked, they give these values at the active cells and the inactive values elsewhere; models of other lengths are refused; the inversion with these maps runs.", "quantifier": "all meshes, active cells, inactive values, choices of logarithms and models", "why_tests_cant": "The claim is for every mask and every combination of options; tests use a few.", "anchors": ["simpeg/electromagnetics/static/spectral_induced_polarization/run.py: spectral_ip_mappings, run_inversion"]}
{"id": "C189", "title": "Fitting a mixture with priors gives the best of its initializations", "statement": "Fitting gives the parameters, lower bound and number of iterations of the initialization with the largest lower bound; each ends with the first change below the tolerance or after the given number of iterations; a warning is given if the result has not converged; with warm start, training continues where it left off; cells of fixed membership belong to their unit in all estimates and at the end; fit_predict returns a label for each sample, with every supported version of scikit-learn.", "quantifier": "all steps of estimation, numbers of initializations and iterations, tolerances, fixed memberships and sequences of fits", "why_tests_cant": "The claim is about every sequence of bounds; tests fit a few mixtures with one initialization each and one version of scikit-learn.", "anchors": ["simpeg/utils/pgi_utils.py: GaussianMixtureWithPrior.fit, GaussianMixtureWithPrior.fit_predict"]}
{"id": "C190", "title": "Projected gradients alternate between steepest descent and conjugate gradients", "statement": "No iteration fails for want of an attribute; directions are the negative gradient or leave the components at bounds alone and go downhill, also if the inner solver stops early; conjugate gradients are used exactly if the components at bounds are unchanged and held there by the gradient, or if the decrease falls below a quarter of the largest since the last of them; steepest descent does not go on for ever for objectives that are bounded below.", "quantifier": "all bounds, objectives, gradients, sequences of iterates and inner solvers", "why_tests_cant": "The phases depend on whole histories of decreases and active sets; that a phase ends is a statement about unboundedly long runs.", "anchors": ["simpeg/optimization.py: ProjectedGradient.startup, ProjectedGradient.findSearchDirection, ProjectedGradient._doEndIteration_ProjectedGradient"]}
{"id": "C191", "title": "Old names do what the new ones do, with a warning, or are errors", "statement": "Classes, properties, methods and functions under old names behave as the new ones for all arguments and states, errors included, after one warning; names marked as removed raise an error before anything is read, written or run; the messages name the old and the new name; this holds for classes at any place of a hierarchy.", "quantifier": "all chains of classes, properties, functions, arguments, states and options", "why_tests_cant": "Tests check a few old names of the package; hierarchies with several old names and all combinations of options are not tested.", "anchors": ["simpeg/utils/code_utils.py: deprecate_class, deprecate_module, deprecate_property, deprecate_method, deprecate_function"]}
{"id": "C192", "title": "Estimated units of a mixture are volume-weighted averages and proper covariances", "statement": "Each M step gives means that are averages of the samples weighted by cell volume and responsibility (under the mapping of the unit, with nonlinear relationships), and covariances of every type that are symmetric and at least the regularization; with identities for the relationships the result is the one without; splitting cells into smaller ones with the same properties changes neither parameters, proportions nor likelihood; proportions sum to one and proportions given for each cell are kept.", "quantifier": "all numbers of cells, units and properties, volumes, samples, responsibilities, covariance types, relationships and refinements of the mesh", "why_tests_cant": "Positive definiteness and independence of the mesh are statements about all samples and all refinements; tests fit a few clouds of points on uniform meshes.", "anchors": ["simpeg/utils/pgi_utils.py: WeightedGaussianMixture._m_step, WeightedGaussianMixture._estimate_gaussian_parameters, WeightedGaussianMixture._estimate_gaussian_covariances_tied, GaussianMixtureWithNonlinearRelationships._estimate_gaussian_parameters, GaussianMixtureWithNonlinearRelationships._m_step, GaussianMixtureWithNonlinearRelationshipsWithPrior._estimate_gaussian_parameters"]}
{"id": "C193", "title": "Soils: factories, table and arrays of heads", "statement": "The factories for the curves of a soil give each curve the parameters it has and refuse unknown names, and both curves of a soil share their common parameters; for every soil of the table and every head, water contents lie between residual and saturated content, conductivities are positive and at most saturated, and neither decreases with the head; values do not depend on the number type of the array of heads.", "quantifier": "all keyword arguments, all soils of the table, all heads and number types", "why_tests_cant": "The claims are about all heads and all sets of arguments; tests evaluate derivatives at random float heads.", "anchors": ["simpeg/flow/richards/empirical.py: haverkamp, van_genuchten, VanGenuchtenParams, HaverkampParams, Haverkamp_k.__call__, Vangenuchten_k.__call__, Haverkamp_theta.__call__, Vangenuchten_theta.__call__"]}
{"id": "C194", "title": "Functions of a type in a combination are found, wherever they are", "statement": "get_functions_of_type returns the list of the outermost functions of a type of a combination, in order; the directives for petrophysical inversion find the one function they need in any combination that has exactly one, and refuse the others.", "quantifier": "all combinations of any depth, all types", "why_tests_cant": "Combinations nest to any depth; tests use combinations of single functions.", "anchors": ["simpeg/objective_function.py: ComboObjectiveFunction.get_functions_of_type", "simpeg/directives/_pgi_directives.py: PGI_UpdateParameters.initialize, PGI_BetaAlphaSchedule.pgi_regularization"]}
{"id": "C195", "title": "Simulations solve with the solver and options they were given", "statement": "get_default_solver returns the last solver class accepted by set_default_solver; anything but a solver class is refused with TypeError and changes nothing. A simulation made without a solver takes the default of that moment and keeps it; all its linear systems are solved with the solver and the options assigned to it last. BFGS starts from the solver of the first simulation that has one, otherwise from the default with the option for symmetric matrices.", "quantifier": "all histories of changes of the default, constructions of any number of simulations, assignments of solvers and options (valid or not) and solutions, all lists of misfits", "why_tests_cant": "Tests set one solver once and look at one attribute; which solver and options reach each factorisation after any order of assignments, defaults and solutions is a statement about all histories", "anchors": ["simpeg/utils/solver_utils.py: get_default_solver, set_default_solver", "simpeg/base/pde_simulation.py: BasePDESimulation.solver, solver_opts", "simpeg/inverse_problem.py: BaseInvProblem.startup", "simpeg/flow/richards/simulation.py: root_finder", "simpeg/potential_fields/magnetics/simulation.py: Simulation3DDifferential.__init__", "simpeg/electromagnetics/natural_source/simulation.py: Simulation2DElectricField.__init__"]}
{"id": "C196", "title": "Starting values of Gaussian mixtures and their densities", "statement": "Proportions given for a Gaussian mixture (for all cells, or cell by cell) are accepted unchanged exactly when there is one for each unit, they lie between 0 and 1, and they sum to one up to 1e-8; anything else raises ValueError. A mixture with relationships starts from the proportions, means and precisions a user gives, and from the estimates for those that are missing; its first log-probabilities are the logarithms of the normal densities with these means and precisions. After covariances (or precisions) are set by hand, the computation of the other makes it the inverse, for every type of covariance, and the log-probabilities are those of the values set by hand.", "quantifier": "every number of units, cells and properties, every list of proportions, all positive definite precisions or covariances of the four types, every mapping of each unit, every sample", "why_tests_cant": "Tests start mixtures from a few settings, mostly without precisions of the user; that the values started from have the meaning documented must hold for every combination of given and missing values and every covariance type.", "anchors": ["simpeg/utils/pgi_utils.py: WeightedGaussianMixture._check_weights", "simpeg/utils/pgi_utils.py: WeightedGaussianMixture.compute_clusters_precisions, compute_clusters_covariances", "simpeg/utils/pgi_utils.py: GaussianMixtureWithNonlinearRelationships._initialize, _estimate_log_gaussian_prob", "simpeg/utils/pgi_utils.py: GaussianMixtureWithNonlinearRelationshipsWithPrior._initialize, _estimate_log_gaussian_prob"]}
{"id": "C197", "title": "DC fields obey Ohm's law and conservation, and every measured field has sensitivities", "statement": "In the static resistivity simulations electric field and current density satisfy Ohm's law in the discrete inner products, currents leave every cell or node as the sources say, nodal charges add up to zero, and a cell's charge is its density times its volume. For each quantity a receiver may measure (potential, electric field, current density), the products with the sensitivities and with their transpose are defined and are the derivative of that quantity along the vector.", "quantifier": "every mesh size and discrete operators, every model, potential, source, direction and receiver quantity", "why_tests_cant": "Tests check potentials and electric fields on a few meshes; sensitivities of a field that fail or are wrong for every input go unnoticed when no test measures that field, and conservation must hold for every potential.", "anchors": ["simpeg/electromagnetics/static/resistivity/fields.py: FieldsDC._phiDeriv, _eDeriv, _jDeriv", "simpeg/electromagnetics/static/resistivity/fields.py: Fields3DCellCentered, Fields3DNodal", "simpeg/electromagnetics/static/resistivity/simulation.py: BaseDCSimulation.Jvec, _Jtvec", "simpeg/base/pde_simulation.py: MfRhoIDeriv, _inner_mat_mul_op"]}
{"id": "C198", "title": "Wenner source lists contain every Wenner array once", "statement": "The list of Wenner sources for n electrodes and spacing a contains exactly the arrays A, M, N, B of four electrodes at equal distances on a line of n electrodes centred at the origin, each once; their number is the sum of n - 3d over distances d, it is empty with fewer than four electrodes, and the geometric factor of each is that of its distance.", "quantifier": "every number of electrodes, every spacing, two or three dimensions", "why_tests_cant": "Tests look at one line; completeness, absence of repetitions and the number of arrays must hold for every number of electrodes.", "anchors": ["simpeg/electromagnetics/static/resistivity/utils.py: WennerSrcList"]}
{"id": "C199", "title": "Data near planes are selected by their distance", "statement": "For three points not on a line, the three-dimensional pseudosection keeps exactly the locations whose distance from the plane through the points is less than the distance given; with several planes those near at least one, in their order, with one distance for all or one for each; IndexError when there are none or a distance is missing. Options given for markers and colour bar replace the defaults.", "quantifier": "every set of locations, planes, distances and options", "why_tests_cant": "Tests draw one figure; that the constants of a plane give true distances for every orientation of the points, and the selection for every number of planes, is a statement about all inputs.", "anchors": ["simpeg/utils/mat_utils.py: define_plane_from_points", "simpeg/electromagnetics/static/utils/static_utils.py: plot_3d_pseudosection"]}
{"id": "C200", "title": "Plots of two-dimensional data use the limits, levels and options given", "statement": "The colour limits are the least and largest number of `clim`, or those of `contourOpts` where `clim` is missing; an exception is raised exactly when both are given and are not close. Missing limits are the least and largest finite value (of absolute values on a logarithmic scale). Levels go from the lower to the upper limit in equal steps, or with equal ratios on a logarithmic scale. Shades lie between 0 and 255 for every surface and direction of light. The dictionaries of the caller are left as they are, and vectors, levels and names of figures can be combined.", "quantifier": "every dictionary of options, limits, data with missing values, number of levels, slope and direction of light", "why_tests_cant": "Tests draw a few figures and do not look at them; which combinations of options work, and limits for all data, are statements about all inputs.", "anchors": ["simpeg/utils/plot_utils.py: plot2Ddata"]}
{"id": "C201", "title": "Curves of layered models show each value over its layer", "statement": "For a layered model with one value more than thicknesses, the curve drawn has two vertices for each layer, both at its value, at the top of the layer and at the top of the next one (at a very large depth for the halfspace), as depths or as elevations below the surface. Every layered model can be drawn, including a halfspace, and the axis shows all values.", "quantifier": "every number of layers, thicknesses, values, elevation of the surface and both kinds of axes", "why_tests_cant": "Tests draw one model; the place of every vertex for every number of layers needs an induction, and the models which cannot be drawn are not among those tested.", "anchors": ["simpeg/utils/plot_utils.py: plot_1d_layer_model", "simpeg/utils/plot_utils.py: plotLayer"]}
{"id": "C202", "title": "Tables printed during an inversion are aligned", "statement": "Each title and each value stands centred in the column of its printer, at the same place in every line; a missing value leaves the column blank; the lines are as long as the sum of the widths, and the line with the name at most one longer. The final report has one line for each stopping rule, in their order, which says whether the left side is at most the right one.", "quantifier": "every list of printers, widths, titles, values and stopping rules", "why_tests_cant": "Tests do not look at what is printed; alignment for every list of columns and every value needs an induction on the columns.", "anchors": ["simpeg/utils/code_utils.py: print_titles", "simpeg/utils/code_utils.py: print_line", "simpeg/utils/code_utils.py: print_done", "simpeg/utils/code_utils.py: print_stoppers"]}
{"id": "C203", "title": "Pseudosections show the data asked for, on the scale asked for", "statement": "Values given are drawn as they are; else those of the data as voltages, apparent resistivities or apparent conductivities; a survey alone raises ValueError. Every kind of figure (scatter, filled contours, pcolor, in any case of letters) is drawn on the scale of its options, or else on that of the arguments, with absolute values on a logarithmic scale; other kinds raise ValueError. The axis shows all locations, the ticks of the colour bar go from the least to the largest value, and options of the colour bar are used.", "quantifier": "every data object or survey, vector of values, data type, kind of figure, scale, limits and dictionary of options", "why_tests_cant": "Tests draw a few figures without looking at them; which combinations of kind, options and scales can be drawn is a statement about all dictionaries.", "anchors": ["simpeg/electromagnetics/static/utils/static_utils.py: plot_pseudosection"]}
{"id": "C204", "title": "Curves of magnetotelluric stations show all readings with their error bars", "statement": "The curve of a station has one value for each frequency read there within 0.1 m, whichever receivers hold the reading and whichever frequencies lack it: apparent resistivity, phase in degrees, or amplitude. Error bars follow from the uncertainties (relative error and noise floor) by first-order propagation through the value drawn. Maps of a frequency in the survey can be drawn. The function for arrays of records draws the same values. Options of the user are kept, and missing ones have their defaults.", "quantifier": "every survey, station, orientation, component, data and uncertainties", "why_tests_cant": "There are no tests of figures; that each error bar is the propagated uncertainty is a statement about derivatives at every impedance, and which readings are found depends on all surveys.", "anchors": ["simpeg/electromagnetics/natural_source/utils/plot_utils.py: _extract_location_data", "simpeg/electromagnetics/natural_source/utils/plot_utils.py: _get_station_data", "simpeg/electromagnetics/natural_source/utils/plot_utils.py: DataNSEMPlotMethods.station_errorbars", "simpeg/electromagnetics/natural_source/utils/plot_utils.py: DataNSEMPlotMethods.frequency_map", "simpeg/electromagnetics/natural_source/utils/plot_data_types.py: plotIsoStaImpedance", "simpeg/electromagnetics/natural_source/utils/plot_utils.py: _validate_kwargs"]}
{"id": "C205", "title": "The arrays of a waveform stay consistent under assignment", "statement": "A waveform given by times and currents has as many currents as times after its construction and after every later assignment, accepted or refused; a refused assignment changes nothing; the times of a piecewise linear waveform are in order and its flag of initial fields says whether the first current is zero; a waveform can be replaced by one of another number of points by assigning both arrays.", "quantifier": "all arrays, all histories of assignments to the two attributes", "why_tests_cant": "The tests assign at most once; consistency after every history of accepted and refused assignments is an invariant.", "anchors": ["simpeg/electromagnetics/viscous_remanent_magnetization/waveforms.py: ArbitraryDiscrete.t_wave", "simpeg/electromagnetics/viscous_remanent_magnetization/waveforms.py: ArbitraryDiscrete.I_wave", "simpeg/electromagnetics/time_domain/sources.py: PiecewiseLinearWaveform.times", "simpeg/electromagnetics/time_domain/sources.py: PiecewiseLinearWaveform.currents"]}
{"id": "C206", "title": "Sensitivities of the choclo engine are never sent to a directory", "statement": "A potential-field simulation with engine choclo that stores its sensitivities on disk has a path that is no directory: such settings raise ValueError, whether given at construction or assigned later; all other settings are accepted if choclo can be imported.", "quantifier": "all engines, stores and paths, all histories of assignments, all file systems", "why_tests_cant": "The check is tested at construction only; that no later history of assignments gets past it is a statement about all histories.", "anchors": ["simpeg/potential_fields/base.py: BasePFSimulation._check_engine_and_sensitivity_path", "simpeg/potential_fields/base.py: BasePFSimulation.engine", "simpeg/potential_fields/base.py: BasePFSimulation.store_sensitivities", "simpeg/simulation.py: BaseSimulation.sensitivity_path"]}
{"id": "C207", "title": "Blockiness weights with the total gradient", "statement": "With gradient type total, the weights of sparse smoothness at a face are computed from the magnitude of the gradient in all directions, averaged over the two cells of the face: non-negative, without sign, homogeneous, the sum of the absolute components where the gradient is uniform (the boundary of the active cells included), and zero only where there is no gradient. With components, or without parent, they are computed from the object's own gradient.", "quantifier": "all tensor meshes, active cells, models, sets of directions, norms and thresholds", "why_tests_cant": "The tests check derivatives with the weights held fixed; what the averages do to gradients of changing sign and at boundaries is a statement about all models and meshes.", "anchors": ["simpeg/regularization/sparse.py: SparseSmoothness.update_weights", "simpeg/regularization/sparse.py: SparseSmoothness.gradient_type", "simpeg/regularization/regularization_mesh.py: RegularizationMesh.aveFx2CC", "simpeg/regularization/regularization_mesh.py: RegularizationMesh.aveCC2Fx"]}

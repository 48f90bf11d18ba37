{"id": "C01", "title": "Variable lists are accepted exactly when valid, and rejection changes nothing", "statement": "Adding a constraint on an explicit list of (non-negative) variable indices reports success exactly when the indices are pairwise distinct and all smaller than the number of variables of the program; when it reports failure the program (constraint count, cliques, multiplier numbering, size of the linear system) is exactly what it was before the call.", "quantifier": "for every number of variables, every program state and every list of non-negative indices", "why_tests_cant": "The index lists are unbounded; tests try a handful of lists and cannot show that no bad list slips through or that no failing call leaves a trace.", "anchors": ["conex/constraint_manager.h: IsUnique, ConstraintManager::AddConstraint, ConstraintManager::AddEqualityConstraint"]}
{"id": "C02", "title": "Equality multipliers get fresh, contiguous indices", "statement": "After the number of variables N is fixed, any sequence of successful and failed constraint additions yields a program in which the multiplier indices of all equality constraints, listed in order of addition, are exactly N, N+1, ..., K-1 where K is the reported size of the linear system: no index is shared by two constraints, none coincides with a problem variable and none is skipped.", "quantifier": "for every N and every finite sequence of constraint additions", "why_tests_cant": "Requires an invariant over arbitrary call sequences.", "anchors": ["conex/constraint_manager.h: AddEqualityConstraint, SizeOfKKTSystem, SetNumberOfVariables"]}
{"id": "C03", "title": "Every constraint only refers to rows that exist in the linear system", "statement": "In every reachable program each constraint's index set is duplicate free and every index in it is smaller than the reported size of the linear system, so scattering a constraint's contribution never leaves the system.", "quantifier": "for every N and every finite sequence of constraint additions", "why_tests_cant": "Invariant over arbitrary call sequences; an out-of-range scatter is silent in release builds.", "anchors": ["conex/constraint_manager.h: ConstraintManager, AssembleSchurComplementResiduals", "conex/cone_program.h: Vars, PrepareStep"]}
{"id": "C04", "title": "Constraint identifiers stay valid", "statement": "The identifier of a constraint is its position in order of addition; once assigned, no later addition (successful or not) changes the index set, the multiplier indices or the position of that constraint, and constraint count grows by exactly one on success and zero on failure.", "quantifier": "for every program, every constraint already in it and every later sequence of additions", "why_tests_cant": "Stability must hold for every future call sequence.", "anchors": ["conex/constraint_manager.h: ConstraintManager::AddConstraint", "conex/cone_program.h: Program::AddConstraint, NumberOfConstraints"]}
{"id": "C05", "title": "Status codes of the construction API tell the truth", "statement": "A construction call reports success if and only if the constraint (or cost) was actually added, and an identifier returned by a construction call denotes a constraint that exists.", "quantifier": "for every program and every argument of AddConstraint, AddQuadraticCost, AddLinearCost, and of the C calls that add constraints", "why_tests_cant": "The error paths return codes whose meaning depends on the return type (bool versus int); tests exercise success paths only.", "anchors": ["conex/cone_program.cc: Program::AddLinearCost, Program::AddQuadraticCost", "conex/quadratic_cost.h: AddQuadraticCost", "interfaces/conex.cc: CONEX_AddSparseLMIConstraint, CONEX_AddQuadraticCost, CONEX_AddLinearInequalities"]}
{"id": "C06", "title": "A program can still be edited through the C interface after it was solved", "statement": "After any number of solves a valid program handle is still accepted by the C editing calls (new constraint, update of a coefficient), so that a program can be modified and re-solved (warm start).", "quantifier": "for every program with any number of constraints and any number of previous solves", "why_tests_cant": "The handle check is a numeric relation between two internal counters which must agree for every number of constraints.", "anchors": ["interfaces/conex.cc: SAFER_CAST_TO_Program, CONEX_UpdateAffineTerm, CONEX_NewLinearInequality", "conex/cone_program.h: Program::InitializeWorkspace"]}
{"id": "C07", "title": "Solver options survive the C boundary", "statement": "Filling an options record with the library defaults and handing it to the C solve calls runs the solver with exactly the library's default configuration, and each option a C user sets reaches the corresponding option of the solver unchanged.", "quantifier": "for every content of the caller's options record before the call, and every user setting", "why_tests_cant": "Depends on the (arbitrary) prior memory content of the record; one forgotten field is invisible in tests that happen to find a zero there.", "anchors": ["interfaces/conex.cc: CONEX_SetDefaultOptions, APIConvertSolverConfiguration", "interfaces/conex.h: CONEX_SolverConfiguration", "conex/cone_program.h: SolverConfiguration"]}
{"id": "C08", "title": "Iteration statistics indexing", "statement": "Asking for iteration i of the last solve with -n <= i < n (n iterations performed) reports the barrier parameter 1/k^2 recorded in iteration i (counted from the end when i is negative) and its absolute number; any other i leaves the caller's record untouched; asking before any solve is an error.", "quantifier": "for every n, every i in the integers and every recorded history", "why_tests_cant": "All integers i and all n; the negative (circular) branch has off-by-one risks at both ends.", "anchors": ["interfaces/conex.cc: CONEX_GetIterationStats", "conex/workspace.h: WorkspaceStats"]}
{"id": "C09", "title": "Solver memory is partitioned without overlap", "statement": "The single buffer allocated for a solve is divided among all constraints' workspaces, the statistics and the right-hand-side storage so that no two regions overlap, every region lies inside the buffer, and every region handed to an aligned matrix view starts at an even offset (16-byte alignment).", "quantifier": "for every list of constraint kinds and sizes and every iteration limit", "why_tests_cant": "Overlap or misalignment depends on arithmetic of all sizes together; a wrong layout usually still passes small tests.", "anchors": ["conex/workspace.h: SizeOf, Initialize, WorkspaceStats", "conex/memory_utils.h: get_size_aligned", "conex/newton_step.h: WorkspaceSchurComplement", "conex/linear_workspace.h: WorkspaceLinear", "conex/workspace_soc.h: WorkspaceSOC", "conex/psd_constraint.h: WorkspaceDensePSD", "conex/hermitian_psd.h: WorkspaceDenseHermitian", "conex/cone_program.h: Program::InitializeWorkspace"]}
{"id": "C10", "title": "Recording statistics never leaves the statistics record", "statement": "During a solve every write of per-iteration statistics lands in the slot of that iteration; in particular it never changes the stored cost scalings or another constraint's data.", "quantifier": "for every iteration limit of this solve and of the solve that allocated the record, cold or warm started", "why_tests_cant": "Involves two solves with different limits; memory corruption is silent.", "anchors": ["conex/cone_program.cc: Solve, Initialize", "conex/workspace.h: WorkspaceStats"]}
{"id": "C11", "title": "The elimination order visits every constraint exactly once", "statement": "The clique elimination order computed from the constraints' index sets is a permutation of the constraints, for every admissible root, and it ends with the root; the computation terminates.", "quantifier": "for every list of index sets and every valid-leaf marking", "why_tests_cant": "Graph-shaped input; loops whose termination depends on the weights of an arbitrary intersection graph.", "anchors": ["conex/clique_ordering.cc: PickCliqueOrderHelper, GetCliqueEliminationOrder"]}
{"id": "C12", "title": "Eliminated blocks partition the unknowns", "statement": "After symbolic analysis the blocks of unknowns assigned to the constraints (supernodes) are pairwise disjoint and together contain exactly the unknowns that occur in some constraint.", "quantifier": "for every list of index sets", "why_tests_cant": "Combinatorial statement over all hypergraphs.", "anchors": ["conex/clique_ordering.cc: PickCliqueOrder, FillIn", "conex/supernodal_solver.cc: SupernodesToData"]}
{"id": "C13", "title": "Every constraint fits in the front it is assembled into", "statement": "For every constraint the index set is contained in the union of the supernode and the separator of its block, so no entry of a constraint's matrix can fall outside the sparsity structure.", "quantifier": "for every list of index sets", "why_tests_cant": "Depends on the fill-in procedure on arbitrary hypergraphs.", "anchors": ["conex/clique_ordering.cc: FillIn, PickCliqueOrder"]}
{"id": "C14", "title": "Separators are eliminated later (running intersection)", "statement": "Every unknown in the separator of a block belongs to the supernode of a block eliminated strictly later, and is contained in the front of that block's parent; hence no fill-in outside the predicted structure can occur during elimination.", "quantifier": "for every list of index sets", "why_tests_cant": "This is the correctness condition for symbolic factorization on all hypergraphs, including those that need fill-in.", "anchors": ["conex/clique_ordering.cc: FillIn, PickCliqueOrder", "conex/tree_utils.cc: PathInTree"]}
{"id": "C15", "title": "The row permutation is a bijection with the stored inverse", "statement": "The permutation taking user variables to positions in the factored matrix and the stored inverse are mutually inverse, and labels of the blocks in the permuted system are contiguous and increasing.", "quantifier": "for every list of supernodes that partition the unknowns", "why_tests_cant": "All permutations of all sizes.", "anchors": ["conex/supernodal_solver.cc: SupernodesToData, Relabel", "conex/kkt_solver.cc: SupernodalKKTSolver"]}
{"id": "C16", "title": "The factored system has one row per unknown", "statement": "The dimension of the factored matrix equals the reported size of the linear system, so every well-formed program can be solved without a dimension error.", "quantifier": "for every program (including programs with a variable that occurs in no constraint)", "why_tests_cant": "Needs the characterisation of when all variables are covered.", "anchors": ["conex/kkt_solver.cc: SupernodalKKTSolver, SolveInPlace", "conex/supernodal_solver.cc: GetMax, SupernodesToData", "conex/constraint_manager.h: SizeOfKKTSystem"]}
{"id": "C17", "title": "Every structural entry of the factor has its own storage", "statement": "Diagonal and off-diagonal blocks of the supernodal matrix are stored at pairwise disjoint ranges inside the allocated buffer, and looking up the address of entry (i,j) returns the cell of the block that owns it for each structurally non-zero entry and no address for every other entry.", "quantifier": "for every supernode and separator structure", "why_tests_cant": "Address arithmetic over all structures.", "anchors": ["conex/triangular_matrix_workspace.h: TriangularMatrixWorkspace, SizeOf", "conex/triangular_matrix_workspace.cc: Initialize, S_S, LookupAddress", "conex/supernodal_solver.cc: Get"]}
{"id": "C18", "title": "The assembled matrix is the sum of the constraint matrices", "statement": "After assembly the linear system's matrix equals the sum over all constraints of the constraint's own (lower triangular) matrix scattered to its unknowns.", "quantifier": "for every list of index sets and every family of constraint matrices", "why_tests_cant": "Whether a block is written directly or scattered depends on subtle ordering conditions that only occur for special hypergraphs.", "anchors": ["conex/supernodal_assembler.cc: BindDiagonalBlock, UpdateBlocks, GetCoeff", "conex/kkt_solver.cc: Assemble", "conex/supernodal_solver.h: DoBind"]}
{"id": "C19", "title": "The assembled right-hand sides are the sum of the constraint residuals", "statement": "Entry k of the assembled residual vectors is the sum over all constraints containing unknown k of that constraint's residual at k, and the scalar inner products are summed over all constraints.", "quantifier": "for every list of (duplicate-free, in-range) index sets and every family of residuals", "why_tests_cant": "Needs all overlap patterns.", "anchors": ["conex/constraint_manager.h: AssembleSchurComplementResiduals"]}
{"id": "C20", "title": "Block factorization followed by block substitution solves the system", "statement": "In exact arithmetic, if all pivots blocks are accepted, factorization followed by the two triangular sweeps returns the exact solution of M x = b for the assembled symmetric M, both in the Cholesky and in the LDL^T variant.", "quantifier": "for every supernodal structure, every symmetric M with that structure and every right-hand side", "why_tests_cant": "An algebraic identity over all block structures; tests check residuals on random samples.", "anchors": ["conex/block_triangular_operations.cc: BlockCholeskyInPlace, ApplyBlockInverseInPlace, ApplyBlockInverseOfTransposeInPlace, BlockLDLTInPlace, ApplyBlockInverseOfMD, ApplyBlockInverseOfMTranspose"]}
{"id": "C21", "title": "The permuted solve answers the question in the user's variable order", "statement": "Solving through the permuted factor returns x with M x = b in the original variable order, iterative refinement leaves an exact solution unchanged, and a right-hand side of the wrong length is rejected.", "quantifier": "for every permutation, every number of refinement rounds and every right-hand side", "why_tests_cant": "All permutations and sizes.", "anchors": ["conex/kkt_solver.cc: SolveInPlace, Solve, KKTMatrix, SetIterativeRefinementIterations"]}
{"id": "C22", "title": "Perfect elimination check is exact", "statement": "The ordering check answers yes exactly when, for every vertex in the given order, the vertex's later neighbours are pairwise adjacent.", "quantifier": "for every symmetric adjacency matrix and every ordering", "why_tests_cant": "All graphs.", "anchors": ["conex/elimination_ordering.cc: IsPerfectlyOrdered, submat"]}
{"id": "C23", "title": "Maximum cardinality search yields a vertex permutation with maximal labels", "statement": "The elimination ordering returned for a graph lists every vertex exactly once, and each vertex chosen has a maximal number of already chosen neighbours among the vertices not yet chosen.", "quantifier": "for every symmetric 0/1 adjacency matrix with non-empty vertex set", "why_tests_cant": "All graphs.", "anchors": ["conex/elimination_ordering.cc: MaximumCardinalitySearch, EliminationOrdering"]}
{"id": "C24", "title": "Chordality recognition is correct", "statement": "The chordality test answers yes exactly when every cycle of length at least four in the graph has a chord.", "quantifier": "for every symmetric 0/1 adjacency matrix with unit diagonal", "why_tests_cant": "Requires the Tarjan-Yannakakis theorem for all graphs.", "anchors": ["conex/elimination_ordering.cc: IsChordal, IsPerfectlyOrdered, MaximumCardinalitySearch, ExtractChordlessPath"]}
{"id": "C25", "title": "Solve terminates within its iteration limit", "statement": "A solve performs at most max_iterations factorizations (one more if dual variables are prepared) and at most max_iterations steps; if the loop is left normally, the reported number of iterations is the number of the last completed iteration; the number of pure centering steps never exceeds the configured number of final centering steps; on a cold start the solve always returns.", "quantifier": "for every behaviour of the linear algebra and of the cones (oracles) and every configuration with max_iterations >= 1", "why_tests_cant": "The loop body's control flow depends on numeric data; all interleavings of failures, warm-start aborts and breaks must be considered.", "anchors": ["conex/cone_program.cc: Solve"]}
{"id": "C26", "title": "A solve reports success only in the success situation", "statement": "If a solve reports 'solved' then the factorization never failed in its last iteration, neither infeasibility flag is set, the final barrier parameter is at most the infeasibility threshold and the loop was left before the iteration limit; the returned value and the status record agree, and infeasibility flags are set only when the barrier parameter exceeds the threshold.", "quantifier": "for every behaviour of the oracles and every configuration", "why_tests_cant": "All control paths of a 300-line function.", "anchors": ["conex/cone_program.cc: Solve", "conex/cone_program.h: ConexStatus"]}
{"id": "C27", "title": "Success means the requested accuracy was reached", "statement": "If a solve reports 'solved', the final barrier parameter is not larger than the one requested by inv_sqrt_mu_max (after the solver's rescaling).", "quantifier": "for every behaviour of the oracles and every configuration", "why_tests_cant": "The success path can be left from several break statements.", "anchors": ["conex/cone_program.cc: Solve"]}
{"id": "C28", "title": "Error exits of a solve are reported as failures", "statement": "When a solve stops because the configuration is inadmissible (quadratic costs without line search or with rescaling) or because the line search failed, the value returned to the caller says 'not solved' and the output vector is not presented as a solution.", "quantifier": "for every program with quadratic costs and every inadmissible configuration", "why_tests_cant": "The shared error macro returns 1, whose meaning depends on the function's return type.", "anchors": ["conex/cone_program.cc: Solve", "conex/error_checking_macros.h: CONEX_DEMAND", "interfaces/conex.cc: CONEX_Solve"]}
{"id": "C29", "title": "The damped step is admissible", "statement": "The step length used is in (0,1], equals 1 exactly when the Newton direction has norm at most sqrt 2, and the product of step length and squared norm never exceeds 2.", "quantifier": "for every norm value reported by the cones (positive real)", "why_tests_cant": "All reals; boundary cases.", "anchors": ["conex/cone_program.cc: Solve", "conex/cone_program.h: PrepareStep"]}
{"id": "C30", "title": "Aggregation over constraints is the aggregate of the product cone", "statement": "The slack eigenvalue bounds, trace and squared norm of the whole program are the maximum, minimum and sums of those of the individual constraints, and the direction norm is the maximum of the individual norms; so that the program behaves like one constraint over the product cone.", "quantifier": "for every number of constraints and every real eigenvalue data", "why_tests_cant": "Sentinel initial values only matter for extreme data.", "anchors": ["conex/cone_program.cc: GetWeightedSlackEigenvalues, Rank", "conex/cone_program.h: PrepareStep"]}
{"id": "C31", "title": "The divergence bound inversion returns a point on the bound", "statement": "Whenever the inversion of the divergence upper bound returns a parameter k (not the failure value), the divergence bound evaluated at k equals the requested bound, and k lies in the interval on which the bound is finite.", "quantifier": "for every positive requested bound and every list of positive eigenvalues", "why_tests_cant": "Algebraic inversion over all reals with several branches.", "anchors": ["conex/divergence.cc: DivergenceUpperBoundInverse, DivergenceUpperBound, SolveRationalEquation, InverseLambdaMaxBranch, InverseLambdaMinBranch, BoundIsFinite"]}
{"id": "C32", "title": "The fallback parameter minimises the infinity norm", "statement": "If all weighted slack eigenvalues are positive, the fallback parameter minimises, over all k, the largest deviation of k times an eigenvalue from one.", "quantifier": "for every pair of extreme eigenvalues 0 < lambda_min <= lambda_max and every competitor k", "why_tests_cant": "All reals.", "anchors": ["conex/cone_program.cc: MinimizeNormInf"]}
{"id": "C33", "title": "Line search over linear inequalities returns exactly the admissible interval", "statement": "For a linear inequality the line search reports success exactly when some step parameter keeps all components of the direction within the bound, and the interval reported is the set of all such parameters; the program-level search returns the largest parameter admissible for all constraints or failure.", "quantifier": "for every dimension and every real data with non-zero slopes", "why_tests_cant": "All reals, all dimensions; sign of each slope matters.", "anchors": ["conex/linear_constraint.cc: FindMinimumMu, PerformLineSearch", "conex/cone_program.cc: ComputeMuFromLineSearch"]}
{"id": "C34", "title": "Two-sided linear constraints are translated faithfully", "statement": "Rewriting lb <= A x <= ub into one-sided inequalities and equations keeps exactly the same set of feasible x, where equal bounds give an equation, and of two different bounds an upper bound of at least 1e8 and a lower bound of at most -1e8 count as absent.", "quantifier": "for every matrix, every pair of bound vectors and every x, provided no row is identically zero together with its bound", "why_tests_cant": "All reals; scaling by row norms must be positive.", "anchors": ["conex/linear_constraint.cc: PreprocessLinearInequality, AppendRow", "interfaces/conex.cc: CONEX_AddLinearInequalities"]}
{"id": "C35", "title": "Linear inequality barrier operations", "statement": "For a linear inequality the scaling point stays componentwise positive under any sequence of non-affine steps, the Schur complement data are A'W^2A, A'W and A'W^2c, they accumulate when requested, and the eigenvalue summary reports the extreme entries, sum and sum of squares of the weighted slack.", "quantifier": "for every dimension, every real data and every sequence of steps", "why_tests_cant": "All dimensions and reals.", "anchors": ["conex/linear_constraint.cc: TakeStep, PrepareStep, ConstructSchurComplementSystem, GetWeightedSlackEigenvalues, ComputeNegativeSlack"]}
{"id": "C36", "title": "Second-order cone: scaling point stays interior", "statement": "For a second-order cone constraint the scaling point remains in the interior of the cone under every step, its square root squares back to it, and the quadratic representation of the square root maps the identity to the scaling point.", "quantifier": "for every dimension, every interior point and every real direction", "why_tests_cant": "All dimensions and reals; exact algebra of the spin factor.", "anchors": ["conex/soc_constraint.cc: Sqrt, Exp, QuadraticRepresentation, TakeStep, PrepareStep", "conex/quadratic_cone_constraint.cc: Sqrt, Exp, QuadraticRepresentation, TakeStep"]}
{"id": "C37", "title": "Second-order cone: Schur complement data, also when accumulated", "statement": "The linear system contributed by a quadratic cone constraint is 2A'Q(w)A with right-hand sides 2A'w and 2A'Q(w)c, and when asked to accumulate, exactly this contribution is added to what was there.", "quantifier": "for every dimension, inner product matrix, scaling point, previous content of the system", "why_tests_cant": "All reals; accumulation mode is not exercised by the solver itself.", "anchors": ["conex/quadratic_cone_constraint.cc: ConstructSchurComplementSystem, SchurComplement", "conex/soc_constraint.cc: ConstructSchurComplementSystem"]}
{"id": "C38", "title": "Dual variables can be read back for every cone", "statement": "After a solve that prepared dual variables, the dual variable returned for a constraint is the final scaling point of that constraint (suitably rescaled), for every kind of cone.", "quantifier": "for every kind of constraint", "why_tests_cant": "Depends on which buffer each cone exposes; an uninitialised buffer often looks like zeros in tests.", "anchors": ["conex/workspace_soc.h: WorkspaceSOC", "conex/constraint.h: get_dual_variable", "conex/cone_program.h: Program::GetDualVariable"]}
{"id": "C39", "title": "The quadratic epigraph encoding is exact", "statement": "A point (x,t) satisfies the generated cone constraint exactly when t >= x'Qx/2, for a positive semidefinite Q.", "quantifier": "for every dimension, every Q and every (x,t)", "why_tests_cant": "All reals and dimensions.", "anchors": ["conex/quadratic_cone_constraint.h: AddQuadraticCostEpigraph", "conex/quadratic_epigraph.cc: BuildQ, BuildA, Buildb"]}
{"id": "C40", "title": "Equality constraints contribute the saddle-point block", "statement": "An equality constraint A x = b contributes the symmetric block [0 A'; A 0] and right-hand side data such that a solution of its linear system satisfies A x = b scaled by the current weight, and it contributes nothing to the cone norms.", "quantifier": "for every A, b", "why_tests_cant": "All reals and dimensions.", "anchors": ["conex/equality_constraint.h: EqualityConstraints", "conex/equality_constraint.cc: ConstructSchurComplementSystem"]}
{"id": "C41", "title": "Quadratic costs passed to the C interface keep their value", "statement": "The quadratic cost registered for a symmetric positive semidefinite matrix has the same value x'Qx at every x as the matrix passed in, although rows are dropped for compactness.", "quantifier": "for every symmetric positive semidefinite matrix and every x", "why_tests_cant": "All matrices; which rows may be dropped depends on definiteness.", "anchors": ["interfaces/conex.cc: NonZeroSubMat, CONEX_AddQuadraticCost", "conex/quadratic_cost.h: AddQuadraticCost"]}
{"id": "C42", "title": "Hypercomplex matrix arithmetic obeys the algebra's laws", "statement": "Matrix multiplication over the reals, complex numbers and quaternions is associative and distributive with unit, conjugate transposition reverses products, octonion scalars satisfy the alternative laws and multiplicativity of the norm; the trace inner product is symmetric and equals the real part of the trace of X* Y.", "quantifier": "for all matrices of all compatible sizes (scalars for the octonionic laws)", "why_tests_cant": "All reals and sizes; one wrong sign in a 8x8 table changes only some products.", "anchors": ["conex/jordan_matrix_algebra.cc: MatrixAlgebra::Multiply, ConjugateTranspose, TraceInnerProduct, JordanMultiply, QuadraticRepresentation"]}
{"id": "C43", "title": "Coefficient updates keep Hermitian data Hermitian", "statement": "Starting from a new linear matrix inequality, after any sequence of accepted coefficient updates every coefficient matrix is Hermitian, the entry last written is readable at its position, and a rejected update changes nothing.", "quantifier": "for every order, every algebra and every sequence of updates", "why_tests_cant": "Arbitrary update sequences.", "anchors": ["conex/hermitian_psd.cc: UpdateLinearOperator, UpdateAffineTerm", "conex/soc_constraint.cc: UpdateLinearOperator, UpdateAffineTerm", "conex/linear_constraint.cc: UpdateLinearOperator, UpdateAffineTerm"]}
{"id": "C44", "title": "Coefficient updates with bad indices are rejected", "statement": "An update of a coefficient with a row, column, variable or component index outside the constraint is rejected without touching memory.", "quantifier": "for every integer index", "why_tests_cant": "All integers including negative ones.", "anchors": ["conex/hermitian_psd.cc: UpdateLinearOperator", "conex/linear_constraint.cc: UpdateLinearOperator", "conex/soc_constraint.cc: UpdateLinearOperator"]}
{"id": "C45", "title": "Matrix exponential approximations are structurally exact", "statement": "The rational approximation r of the exponential used for matrix updates satisfies r(A) r(-A) = I and r(0)=I, commutes with A, and the update W -> sym(r(WS) W) equals W exactly when the direction is zero and keeps W symmetric.", "quantifier": "for every square matrix for which the denominator is invertible", "why_tests_cant": "All matrices.", "anchors": ["conex/exponential_map_pade.cc: ComputeWeightedPowers, ExponentialMapPadeApproximation", "conex/exponential_map.cc: DoExponentialMap, DoGeodesicUpdateScaled", "conex/psd_constraint.cc: GeodesicUpdate"]}
{"id": "C46", "title": "Clique tree is greedy", "statement": "In the symbolic analysis every non-root constraint block is attached to a parent it shares an unknown with (or where one of the two has multipliers), and no block eliminated before it has a larger affinity with that parent, where affinity is the number of shared unknowns plus 10000 for each of the two that carries multipliers.", "quantifier": "all families of index sets, all sets of constraints with multipliers, all roots", "why_tests_cant": "The traversal depends on the whole history of visited blocks; tests only try a few small families.", "anchors": ["conex/clique_ordering.cc: Weight::get_weight, PickCliqueOrderHelper"]}
{"id": "C47", "title": "A rejected chordality test reports a genuine witness", "statement": "When the chordality test answers no and a path is requested, four different vertices of the graph passed in are reported, consecutive ones adjacent and no other pair of them adjacent except possibly the first and the last.", "quantifier": "for every symmetric 0/1 adjacency matrix with unit diagonal that is not chordal", "why_tests_cant": "Depends on the numbering found by the search; an existing test only looks at the yes/no answer, and any finite set of graphs misses numberings.", "anchors": ["conex/elimination_ordering.cc: IsChordal, ExtractChordlessPath"]}
{"id": "C48", "title": "Maximum degree vertices are found", "statement": "The list of maximum degree vertices contains exactly the vertices whose row sum is not exceeded by any other row sum.", "quantifier": "for every adjacency matrix with non-empty vertex set", "why_tests_cant": "Must hold for every position of the maxima and every pattern of ties; a few graphs do not cover the first vertex or ties with it.", "anchors": ["conex/elimination_ordering.cc: MaximumDegreeVertices"]}
{"id": "C49", "title": "Infeasible programs can be reported as infeasible", "statement": "The limits applied to the barrier parameter leave room for the infeasibility test: there are answers of the cones for which a solve in the default configuration sets an infeasibility flag.", "quantifier": "for every behaviour of the oracles and the default configuration", "why_tests_cant": "A test in the default configuration only sees 'not infeasible', which is right for feasible programs; that no behaviour at all can set the flag is a statement about all runs.", "anchors": ["conex/cone_program.cc: Solve", "conex/cone_program.h: SolverConfiguration"]}
{"id": "C50", "title": "A solve reports its own iteration count", "statement": "After every solve, also a failing one, the status holds the number of iterations completed by this solve.", "quantifier": "for every behaviour of the oracles and every sequence of solves", "why_tests_cant": "Failures of the factorization in a chosen iteration, after a first solve, are hard to provoke; the stale value looks plausible.", "anchors": ["conex/cone_program.cc: Solve", "conex/cone_program.h: ConexStatus", "conex/workspace.h: WorkspaceStats"]}
{"id": "C51", "title": "The barrier parameter chosen from the divergence bound is well placed", "statement": "If all weighted slack eigenvalues are positive, the parameter chosen from the divergence bound is positive, keeps the infinity norm below one, and either attains the requested bound or minimises the infinity norm when the bound cannot be attained. If some eigenvalue is not positive but the trace is, the parameter is positive and the squared distance of the scaled slack from the identity is the smaller of 3/2 of its minimum and 7/10 of the rank, or the minimum if that is larger.", "quantifier": "for every list of real eigenvalues and every requested bound", "why_tests_cant": "The choice goes through a root selection, a fallback and a second fallback; each branch is a property over a continuum of spectra.", "anchors": ["conex/cone_program.cc: ComputeMuFromDivergence, MinimizeNormInf", "conex/divergence.cc: DivergenceUpperBoundInverse"]}
{"id": "C52", "title": "Equality constraints get one multiplier per row however they are passed", "statement": "Adding an equality constraint A x = b to a program registers one Lagrange multiplier for each row of A, so that its block of the linear system fits, no matter whether the constraint object is passed as a temporary or as a named object.", "quantifier": "for every A, b, every program and both ways to pass the object", "why_tests_cant": "The dispatch happens at compile time in a forwarding-reference template; the tests only pass temporaries.", "anchors": ["conex/cone_program.h: Program::AddConstraint", "conex/constraint_manager.h: AddConstraint, AddEqualityConstraint"]}
{"id": "C53", "title": "Inner products of a linear inequality reach the linear system", "statement": "When a linear inequality initialises its linear system, the stored inner products are <w,c> and <c,Q(w)c>, also when the system has more unknowns than the inequality has columns.", "quantifier": "for every dimension, every scaling point and every size of the system", "why_tests_cant": "All reals; tests use systems of equal size.", "anchors": ["conex/linear_constraint.cc: ConstructSchurComplementSystem"]}
{"id": "C54", "title": "Constraints whose columns do not fit their variables are refused", "statement": "Adding a constraint whose number of columns differs from the number of variables it refers to either fails or leads to a linear system that is accessed within its bounds only.", "quantifier": "for every constraint and every number of variables", "why_tests_cant": "Out-of-range block access is undefined behaviour in release builds; all sizes.", "anchors": ["conex/constraint_manager.h: AddConstraint", "conex/linear_constraint.cc: ConstructSchurComplementSystem"]}
{"id": "C55", "title": "A cost vector of the wrong length is an error", "statement": "Solving with a cost vector whose length differs from the number of variables reports failure; it does not solve a different problem.", "quantifier": "for every program, every cost vector and every solver configuration", "why_tests_cant": "Tests pass vectors of the right length; with a wrong one the call still returns a solution.", "anchors": ["conex/cone_program.cc: Solve, Program::AddLinearCost, Program::ClearLinearCosts", "interfaces/conex.cc: CONEX_Maximize"]}
{"id": "C56", "title": "Prepared dual variables satisfy the dual equation and lie in the cone", "statement": "After the preparation of dual variables at the end of a solve, the dual variables satisfy the dual equation: the adjoints of the constraints applied to them, plus the multipliers of equations applied to their coefficients (plus Qx for a quadratic cost), add up to the scaled linear cost; and each lies in its cone.", "quantifier": "for every program, scaling point and solution of the linear system", "why_tests_cant": "The preparation is a Newton step that must fit all kinds of constraints at once; tests compare objective values with tolerances on a few problems.", "anchors": ["conex/cone_program.cc: Solve, prepare_dual_variables", "conex/cone_program.h: PrepareStep", "conex/linear_constraint.cc: PrepareStep", "conex/soc_constraint.cc: PrepareStep", "conex/hermitian_psd.cc: PrepareStep"]}
{"id": "C57", "title": "Steps of matrix inequalities stay in the cone", "statement": "After a step of the size that the solver derives from the reported norm, the scaling point of a symmetric linear matrix inequality is positive definite again.", "quantifier": "for every order, every symmetric data, every positive definite scaling point and every direction", "why_tests_cant": "All reals; the norm comes from a few Lanczos iterations, which happen to find the extreme eigenvalues of the matrices in tests.", "anchors": ["conex/psd_constraint.cc: PrepareStep, TakeStep, GeodesicUpdate", "conex/approximate_eigenvalues.cc: AsymmetricLanczos", "conex/exponential_map_pade.cc: ExponentialMapPadeApproximation"]}
{"id": "C58", "title": "Norms and eigenvalue bounds of matrix inequalities are defined and lie within the spectrum", "statement": "For a positive definite scaling point W and symmetric slack S the approximate eigenvalues of WS lie between the smallest and largest eigenvalue, so the reported norm never exceeds the true one; trace and sums of squares are exact; and these numbers are always defined.", "quantifier": "for every order, number of iterations, start vector, W and S", "why_tests_cant": "All reals; orthogonality of the Lanczos vectors in a scaled inner product is not observable from outside.", "anchors": ["conex/approximate_eigenvalues.cc: AsymmetricLanczos, ApproximateEigenvalues", "conex/psd_constraint.cc: PrepareStep, GetWeightedSlackEigenvalues"]}
{"id": "C59", "title": "The linear system of a dense matrix inequality is complete", "statement": "Initialising the linear system of a dense matrix inequality writes tr(A_i W A_j W), tr(A_i W) and tr(A_i W C W) for all variables of the system (zero for variables without a matrix), accumulating adds exactly that; the matrix is positive semidefinite.", "quantifier": "for every order, number of matrices, scaling point, previous content and size of the system", "why_tests_cant": "Memory that was never written is often zero in tests; the tests use as many matrices as variables.", "anchors": ["conex/dense_lmi_constraint.cc: ConstructSchurComplementSystem", "conex/cone_program.h: Program::InitializeWorkspace"]}
{"id": "C60", "title": "Steps of Hermitian matrix inequalities keep the scaling point positive definite", "statement": "Starting from the identity, every sequence of prepared steps of any size keeps the scaling point of a Hermitian matrix inequality (real, complex, quaternion, octonion) Hermitian and positive definite, and a step of size zero changes nothing.", "quantifier": "for every division algebra, order, Hermitian data, sequence of steps and step size", "why_tests_cant": "All reals and four number systems; positivity of the even Taylor polynomials in a scaled basis and the algebra of quaternion matrices are not observable on examples.", "anchors": ["conex/hermitian_psd.cc: PrepareStep, TakeStep", "conex/hermitian_psd.h: SetIdentity", "conex/exponential_map.cc: GeodesicUpdate, GeodesicUpdateScaled"]}
{"id": "C61", "title": "Norms and eigenvalue bounds of Hermitian matrix inequalities are defined and lie within the spectrum", "statement": "For a positive definite scaling point W and Hermitian slack S the reported eigenvalue bounds of WS lie between the smallest and largest eigenvalue, the reported norm never exceeds the true one, trace and sums of squares are exact, and the numbers are always defined.", "quantifier": "for every division algebra, order, start vector, W and S", "why_tests_cant": "All reals, random start vectors; a vanishing slack or trace never occurs in the tests.", "anchors": ["conex/jordan_matrix_algebra.cc: ApproximateEigenvalues", "conex/hermitian_psd.cc: PrepareStep, GetWeightedSlackEigenvalues"]}
{"id": "C62", "title": "The linear system of a Hermitian matrix inequality is complete", "statement": "Initialising the linear system of a Hermitian matrix inequality writes the inner products of the A_i with Q(W)A_j, W and Q(W)C for all variables of the system, accumulating adds exactly that; the matrix is positive semidefinite; a constraint whose affine term was never set is treated as having affine term zero.", "quantifier": "for every division algebra, order, number of matrices, scaling point and previous content of the system", "why_tests_cant": "Octonion matrices do not associate, and memory that was never written is often zero in tests.", "anchors": ["conex/hermitian_psd.cc: ConstructSchurComplementSystem", "conex/hermitian_psd.h: ComputeNegativeSlack", "interfaces/conex.cc: CONEX_NewLinearMatrixInequality"]}
{"id": "C63", "title": "Updates of the matrix of a quadratic cost take effect", "statement": "After a successful call of CONEX_UpdateQuadraticCostMatrix for entry (row, col), the entry of the linear system for the two variables is the given value, for both orders of the two, and all other entries are as before.", "quantifier": "for every order, matrix, value and entry", "why_tests_cant": "Entry pairs above the diagonal silently have no effect; a test that writes both entries cannot see it.", "anchors": ["conex/quadratic_cost.cc: UpdateAffineTerm, ConstructSchurComplementSystem", "conex/supernodal_assembler.cc: GetCoeff", "interfaces/conex.cc: CONEX_UpdateQuadraticCostMatrix"]}
{"id": "C64", "title": "Python class: GetDualVariables reads each constraint once", "statement": "In the Python class Conex, GetDualVariables returns one matrix for each constraint that was added, in the order of the calls, read from that constraint of the C++ program and of the shape of that constraint; self.m is the number of variables.", "quantifier": "for every sequence of calls of the class, with any sizes", "why_tests_cant": "The bookkeeping (self.num_constraints, self.c, self.m) is kept apart from the C++ program; a mismatch needs a particular mix of calls, each of which works alone.", "anchors": ["interfaces/python/ConexProgram.py: Conex", "interfaces/python/conex.i"]}
{"id": "C65", "title": "MATLAB blkdiagPrg: the reduced program stands for the program", "statement": "blkdiagPrg (symmetrise, drop empty equations, split the matrices into the connected blocks of their pattern) yields a program whose solutions, carried back with the returned indices, are the solutions of the given program with the same cost, and the same holds for the duals, in both directions.", "quantifier": "for every program in SeDuMi form with matrix variables of any orders", "why_tests_cant": "A dropped entry only matters when the cost and the equations have a particular pattern; the tests solve random programs, in which every entry occurs.", "anchors": ["interfaces/matlab/util/blkdiagPrg.m", "interfaces/matlab/util/CleanLinear.m", "interfaces/matlab/util/coneBase.m: Symmetrize", "interfaces/matlab/util/BuildMask.m", "interfaces/matlab/util/BinaryPsdCompletion.m"]}
{"id": "C66", "title": "MATLAB: the matrices given to the solver are those of the program", "statement": "For the program made by blkdiagPrg, the matrices that ExtractConstraintMatrices returns for each block are exactly those of the program: the affine matrix minus the sum of y_v times the matrix of variable v is the block of c - A'y, and no variable is listed twice.", "quantifier": "for every program in SeDuMi form, every block and every y", "why_tests_cant": "The loop consumes a list of entries in order; a mistake needs a block without entries in front of one that has some.", "anchors": ["interfaces/matlab/util/ExtractConstraintMatrices.m", "interfaces/matlab/util/ConexPreprocess.m"]}
{"id": "C67", "title": "MATLAB conex: the answer solves the given program", "statement": "The matrices that conex.m gives to the solver describe a program equivalent to the given one, and the values it returns, after undoing the elimination of free variables, the splitting into blocks and the removal of empty equations, are feasible and of the same value for the given program whenever the values of the solver are so for its program.", "quantifier": "for every program in SeDuMi form with K.f and K.s, for every null space basis and every solution that MATLAB may return", "why_tests_cant": "The outcome depends on the choice of a basis by spnull, on whether K.f is given, and on the number of free variables.", "anchors": ["interfaces/matlab/conex.m", "interfaces/matlab/util/ConexPreprocess.m", "interfaces/matlab/util/EliminateFreeVars.m"]}
{"id": "C68", "title": "Column-wise sparse Cholesky and substitutions", "statement": "TriangularMatrixOperations::CholeskyInPlace turns a stored positive definite matrix M into a lower triangular L with positive diagonal and L L' = M, touching only existing entries; ApplyInverse and ApplyInverseOfTranspose solve L y = b and L' y = b.", "quantifier": "for every supernodal pattern, every positive definite matrix on it and every right-hand side", "why_tests_cant": "The tests use patterns in which every supernode has a column; an empty supernode makes the column iterator read outside a block, which need not show.", "anchors": ["conex/supernodal_solver.cc: TriangularMatrixColumnOperations, LowerTriangularSuperNodal, CholeskyInPlace, ApplyInverse, ApplyInverseOfTranspose"]}
{"id": "C69", "title": "The block Cholesky factorisation accepts exactly the positive definite matrices", "statement": "In exact arithmetic BlockCholeskyInPlace returns true for a stored symmetric matrix exactly if that matrix is positive definite, whatever fill-in, empty blocks and elimination order the pattern has; otherwise it returns false. So the failure flag the interior point loop relies on is neither a false alarm nor missed.", "quantifier": "for every supernodal structure and every stored symmetric matrix, over every ordered field, for every dense factorisation that keeps its contract", "why_tests_cant": "Needs all positive definite and all other matrices on all block structures; tests only factor random positive definite ones.", "anchors": ["conex/block_triangular_operations.cc: BlockCholeskyInPlace", "conex/kkt_solver.cc: Solver::Factor"]}
{"id": "C70", "title": "The solution is written within the array of the caller", "statement": "CONEX_Solve and CONEX_Maximize, called directly or through the Python class, write the solution only to entries of the array they were given, whatever its length.", "quantifier": "All programs, configurations, answers of the linear algebra, lengths of the array, and sequences of calls of the Python class.", "why_tests_cant": "The length is ignored by the callee; whether memory behind the array is hit shows only under a sanitizer and only for programs whose last call had fewer columns than variables.", "anchors": ["/repo/interfaces/conex.cc:93", "/repo/conex/cone_program.cc:264", "/repo/interfaces/python/ConexProgram.py:128"]}
{"id": "C71", "title": "A solve that reports success returns a feasible and almost optimal point", "statement": "If Solve returns true, the point it returns satisfies every constraint, and its objective value is within s_dot_x = mu (rank - |d|^2) / (b_scaling c_scaling) of the largest value over all feasible points, for any mix of linear inequalities, second-order and quadratic cones, matrix inequalities, equations and convex quadratic costs.", "quantifier": "All programs over these constraints, all numbers of iterations, scalings, barrier parameters, exact arithmetic; all feasible points for comparison.", "why_tests_cant": "Tests compare with known optima of a few programs up to a tolerance; the claim compares with every feasible point and every program, and the failures need directions whose norm is misjudged or centering steps that run out.", "anchors": ["/repo/conex/cone_program.cc:415", "/repo/conex/cone_program.cc:435", "/repo/conex/cone_program.cc:459", "/repo/conex/cone_program.cc:331", "/repo/conex/cone_program.h:69"]}
{"id": "C72", "title": "The reported KKT error is zero in exact arithmetic", "statement": "If the linear system of an iteration is solved exactly, the objective values by and cx that Solve computes differ by exactly s_dot_x, so that kkt_error is zero (or NaN when s_dot_x is zero) and never exceeds kkt_error_tolerance, for any mix of linear inequalities, second-order and quadratic cones, real, complex, quaternion and octonion matrix inequalities and equations.", "quantifier": "All programs of these constraints without quadratic costs, all scaling points, barrier parameters and scalings, all right-hand sides.", "why_tests_cant": "The error of a floating point run is never zero, so that a test can only see that it is small for a few programs; the claim that it is rounding error alone needs all programs, and the failure needs a constraint with fewer columns than variables and a large affine term.", "anchors": ["/repo/conex/cone_program.cc:441", "/repo/conex/cone_program.cc:447", "/repo/conex/cone_program.cc:457", "/repo/conex/cone_program.cc:466", "/repo/conex/cone_program.cc:325", "/repo/conex/linear_constraint.cc:190"]}
{"id": "C73", "title": "An infeasibility flag means infeasibility", "statement": "If Solve sets primal_infeasible then no point satisfies the constraints, and if it sets dual_infeasible then the dual program has no feasible point, that is, the objective is unbounded over the feasible points.", "quantifier": "All programs of linear inequalities, second-order and quadratic cones, real, complex and quaternion matrix inequalities and equations, all options, all numbers of iterations, exact arithmetic; all points for comparison.", "why_tests_cant": "The tests construct infeasible programs and look whether the flag is set; a flag for a program that is feasible, but only far from the origin, needs a program made for it, and what a flag does guarantee about all feasible points cannot be tested.", "anchors": ["/repo/conex/cone_program.cc:488", "/repo/conex/cone_program.cc:493", "/repo/conex/cone_program.cc:495", "/repo/conex/cone_program.cc:441", "/repo/conex/cone_program.cc:447"]}
{"id": "C74", "title": "The iterations solve the program from its data to the point returned", "statement": "An iteration composes the linear systems of the constraints, their assembly, the factorization, the solution for the barrier parameter, PrepareStep and TakeStep. For programs without equations whose unknowns are determined by the constraints and quadratic costs every iteration is defined (no out-of-range access, no failed factorization), for every sequence of barrier parameters, and every iteration whose norm is at most one yields a feasible point whose objective value is within (rank - normsqrd)/(k^2 bs cs) of the optimum; c'x and b'y computed on the way bound the optimal value from above and below.", "quantifier": "all programs of linear inequalities, second-order and quadratic cones, matrix inequalities over R, C and H and convex quadratic costs with scaling points in the interior; all barrier parameter sequences and iteration counts; exact arithmetic", "why_tests_cant": "the composition of all parts is tested on a few programs with a tolerance on the result; that no step of any iteration can fail and that the gap bound holds for every program and parameter is a universally quantified statement over reals", "anchors": ["/repo/conex/cone_program.cc:338-341", "/repo/conex/cone_program.cc:360", "/repo/conex/cone_program.cc:408-452", "/repo/conex/kkt_solver.cc:133-149", "/repo/conex/kkt_solver.cc:172-263"]}
{"id": "C75", "title": "Solve on vector cone programs", "statement": "On a cold start with at least one iteration and one final centering step, Solve of a program of linear inequalities, second-order and quadratic cones with convex quadratic costs that determine the unknowns is defined: no access out of range, no failed factorization, no uninitialised value. If it reports success and the last direction has norm at most one, then the array holds a feasible point whose cost exceeds the least one by at most (rank - normsqrd) / (k^2 bs cs). This holds whatever the line search, the divergence bound and the KKT error say. Every result is one of the control flow studied in C25-C29 and C49-C50 for some answers of the numerical part.", "quantifier": "All programs, sizes and workspaces; all options with initialization_mode 0, max_iterations > 0, final_centering_steps > 0; all answers of the line search, the divergence bound and the KKT error. Exact arithmetic.", "why_tests_cant": "The claim is about the composition of set-up, assembly, factorization, scaling, step and exit tests over all iterations, for all programs; tests run a few programs and compare with a tolerance.", "anchors": ["conex/cone_program.cc:78-112", "conex/cone_program.cc:235-533", "conex/kkt_solver.cc:118-216"]}
{"id": "C76", "title": "The geodesic update", "statement": "GeodesicUpdate(w, s) returns the sum of the first twelve terms (w s)^k w / k! of the series of w^{1/2} exp(w^{1/2} s w^{1/2}) w^{1/2}. For positive definite w and Hermitian s the result is positive definite.", "quantifier": "All Hermitian w and s of any size over the reals, complex numbers and quaternions; exact arithmetic.", "why_tests_cant": "Tests compare with the exponential of one random small direction; the claims are identities and inequalities over all matrices, and the failure of the second needs a large negative direction.", "anchors": ["/repo/conex/exponential_map.cc:5-12", "/repo/conex/exponential_map.cc:67-111"]}
{"id": "C77", "title": "Error report of the Python class", "statement": "ComputeErrors(y, x, b) returns the slacks c - A y, the norm of b - sum A' x, the sum of the inner products of slacks and multipliers, and one smallest entry or eigenvalue of slack and multiplier per constraint.", "quantifier": "All programs built by the methods of the class, all sizes, y, multipliers of matching shape and b; exact arithmetic.", "why_tests_cant": "The tests call the report on programs with one constraint. The failures need two vector inequalities, a second call, a column of affine terms or the methods New...", "anchors": ["/repo/interfaces/python/ConexProgram.py:11-56", "/repo/interfaces/python/ConexProgram.py:98-105", "/repo/interfaces/python/ConexProgram.py:222-277"]}
{"id": "C78", "title": "GetFeasibleObjective yields an objective with a strictly feasible dual, and Solve maximises it", "statement": "For every program with complete data (all kinds of constraints), GetFeasibleObjective is defined, the value of its result at any point is a constant minus half of the trace of the slacks, so that it is bounded above on the feasible set and feasible points of high value have bounded slacks; without equations Solve(b, ...) maximises it, with equations the size is refused, the refusal is ignored and the objective zero is used.", "quantifier": "all programs of linear, second-order, quadratic, real, complex, quaternion and octonion matrix constraints, equations and quadratic costs with complete data; all points; all memory contents", "why_tests_cant": "a bound over the whole feasible set and over all programs is not visible in solves of particular programs; the tests never pass the result of a program with equations", "anchors": ["conex/cone_program.cc:535-552", "conex/cone_program.cc:226-233", "conex/cone_program.cc:78-112", "conex/kkt_solver.cc:133-162"]}
{"id": "C79", "title": "ApproximateEigenvalues of one matrix returns Ritz values, and all eigenvalues after n steps", "statement": "For a symmetric (Hermitian) matrix A with n rows, a start vector r0 other than zero and num_iter steps, ApproximateEigenvalues(A, r0, num_iter) and its hypercomplex version return finite numbers; each is a Rayleigh quotient of A (so it lies between the extreme eigenvalues), and for num_iter = n the results are exactly the eigenvalues of A.", "quantifier": "all symmetric real and Hermitian complex, quaternion and octonion matrices (exactness: not octonions), all start vectors, all positive numbers of steps, exact arithmetic", "why_tests_cant": "The tests run the recurrence on a few random matrices and compare the extreme values with a tolerance; they do not cover start vectors in a small invariant subspace or more steps than rows, and no run shows that every result of every matrix is a Rayleigh quotient.", "anchors": ["conex/approximate_eigenvalues.cc:136-171", "conex/jordan_matrix_algebra.cc:239-275", "conex/jordan_matrix_algebra.h:46-67"]}
{"id": "C80", "title": "EigenvaluesOfJacobiMatrix (compressed = false) agrees with the recurrence on vectors and is exact after n steps", "statement": "For a positive definite W, a symmetric S and a start vector other than zero, ApproximateEigenvalues(W S, W, r, n, compressed = false) returns finite numbers: the same ones as compressed = true, all within the spectrum of W S, and for n equal to the number of rows exactly the eigenvalues of W S.  The hypercomplex version (trace inner product, early stop) is finite and within the spectrum for real, complex and quaternion matrices.", "quantifier": "all real matrices of every order, all start vectors and step counts; all complex and quaternion Hermitian matrices; exact arithmetic", "why_tests_cant": "The test compares both variants and the eigenvalues for one 4 x 4 matrix with a generic start vector.  Agreement needs that no coefficient of a polynomial is cut off by the shift at any step for any order, and the breakdown needs a start vector in an invariant subspace.", "anchors": ["conex/approximate_eigenvalues.cc:37-134", "conex/approximate_eigenvalues.cc:241-256", "conex/jordan_matrix_algebra.cc:277-377"]}
{"id": "C81", "title": "Eigenvalues from the minimal polynomial", "statement": "For a Hermitian matrix x of order n >= 1 over the reals, complex numbers or quaternions, MatrixAlgebra<d>::Eigenvalues (solve least squares for x^n in the lower powers, then take the real parts of the roots of the companion matrix) returns n numbers that contain every eigenvalue of x, and returns nothing but eigenvalues.", "quantifier": "all d in {1,2,4}, all n >= 1, all Hermitian x, all solvers that return a least squares solution, all root finders that return the real parts of all roots with multiplicity", "why_tests_cant": "the tests compare with random matrices, which have distinct eigenvalues with probability one", "anchors": ["conex/jordan_matrix_algebra.cc:17-58", "conex/jordan_matrix_algebra.cc:212-216"]}
{"id": "C82", "title": "Orthogonalization of hypercomplex columns", "statement": "For a matrix A over the reals, complex numbers or quaternions, MatrixAlgebra<d>::Orthogonalize returns finite entries exactly if the columns of A are independent (over the algebra, coefficients on the right); then Q* Q = I, column k of Q is a combination of columns 0..k of A with a real positive coefficient on column k, and Q Q* = I if A is square. A matrix with more columns than rows gives NaN. For octonions the function throws.", "quantifier": "all d in {1,2,4}, all sizes, all matrices A, all square roots correct on nonnegative numbers", "why_tests_cant": "the test takes random square matrices, whose columns are independent with probability one", "anchors": ["conex/jordan_matrix_algebra.cc:218-237", "conex/jordan_matrix_algebra.h:69-83"]}
{"id": "C83", "title": "The index lists of the MATLAB class coneBase and its operations on symmetric matrices", "statement": "The ranges from Kstart to Kend list the variables of the free, nonnegative, Lorentz, rotated and semidefinite parts of the cone one after the other without gap or overlap; NumVar, flqrIndx, NumFlqrVars and AnyConicVars agree with them; the entries at indxNNeg are nonnegative for every vector of the cone. Symmetrize gives symmetric matrices and keeps inner products with symmetric matrices; mats is the adjoint of LowerTri; InitSymmetric gives the symmetric matrix with the given lower triangle; Desymmetrize keeps inner products of symmetric matrices and leaves nothing above the diagonals; mats after LowerTri after Desymmetrize gives the matrix back.", "quantifier": "all cones of the SeDuMi format, all real vectors", "why_tests_cant": "The functions are not called by any test; index arithmetic of this kind goes wrong for particular combinations of sizes, such as blocks of size 0 or 1.", "anchors": ["interfaces/matlab/util/coneBase.m:16-42", "interfaces/matlab/util/coneBase.m:48-105", "interfaces/matlab/util/coneBase.m:122-167", "interfaces/matlab/util/coneBase.m:188-262"]}
{"id": "C84", "title": "FindMustVanish returns only entries that vanish", "statement": "If the entries at indx of a vector of the cone are 0 then so are the entries at all indices that FindMustVanish returns, and the new sizes account for the entries that are removed.", "quantifier": "all cones of the SeDuMi format, all index sets, all vectors of the cone", "why_tests_cant": "The statement is about all vectors of a cone; a test sees the index list for one input only, and the loop over a column vector is right for one index.", "anchors": ["interfaces/matlab/util/coneBase.m:302-392"]}
{"id": "C85", "title": "The MATLAB function conex, run through the class ConexProgram and the C interface, returns solutions", "statement": "For every program in SeDuMi form without free variables (or with one, and several blocks) over semidefinite cones: if conex.m returns and does not report a failure, and the library behind the C interface is right whenever it reports success, then the returned x is feasible for the program, y is feasible for its dual, both are optimal, and their values agree; with the default parameters conex.m returns.", "quantifier": "all programs (A,b,c,K.s) over the reals, all parameters, all libraries that are right whenever they report success, all choices of A\\b and spnull within their contracts", "why_tests_cant": "The claim quantifies over all programs and over every behaviour of the numerical library; the chain CleanLinear, Symmetrize, BuildMask, ExtractConstraintMatrices, ConexProgram, the C interface, ConexPostProcess is tested in MATLAB on a few problems only, and the failing paths (pars.errors, K.f=0, K.q with a zero, one block that splits) are not tested at all.", "anchors": ["interfaces/matlab/conex.m:1-89", "interfaces/matlab/util/ConexProgram.m:1-100", "interfaces/matlab/util/ConexPreprocess.m:18-55", "interfaces/matlab/util/blkdiagPrg.m:17-52", "interfaces/matlab/util/BuildMask.m:1-58", "interfaces/conex.h:10-30"]}
{"id": "C86", "title": "Dual variables of linear programs", "statement": "After a successful solve of a linear program on a cold start with prepare_dual_variables set, CONEX_GetDualVariable is defined for every constraint with an array of the right size, and the dual variables satisfy the equations of the dual program exactly: A' x = -cost at every variable. They should also be nonnegative; this holds if the last direction has norm at most one and norm^2 normsqrd at most one, and then they prove that the returned point is optimal up to 2 rank / (k^2 bs cs).", "quantifier": "All linear programs that determine their unknowns, all sizes and workspaces; all options with initialization_mode 0, max_iterations > 0, final_centering_steps > 0 and prepare_dual_variables set; all answers of the line search, the divergence bound and the KKT error. Exact arithmetic with the real exponential.", "why_tests_cant": "The claim combines all iterations, a second factorization and solution of the linear system at another scaling point, and the scale that reading takes from the statistics; tests compare a few results with tolerances and do not check the dual equations for all programs.", "anchors": ["conex/cone_program.cc:485-533", "conex/cone_program.h:118-134", "conex/linear_constraint.cc:108-175", "interfaces/conex.cc:114-127"]}
{"id": "C87", "title": "Repeated solves and warm starts", "statement": "Solve may be called repeatedly on one program, with changing linear costs and with initialization_mode 0 (cold) or 1 (warm, starting from the scaling points and scalings of the last call). Every call of such a sequence is defined: no access out of range, no failed factorization, no uninitialised value; and every call whose return value reports success and whose last direction has norm at most one leaves in its array a feasible point whose cost exceeds the least one by at most (rank - normsqrd) / (k^2 bs cs), for the cost of that call.", "quantifier": "All programs of linear inequalities, second-order and quadratic cones with convex quadratic costs that determine the unknowns; all sequences of calls and costs, all options with max_iterations > 0 and final_centering_steps > 0, all answers of the line search, the divergence bound and the KKT error. The first call is cold. Exact arithmetic.", "why_tests_cant": "The claim is about state that is carried from call to call (scaling points, scalings, capacity of the statistics block) over all sequences of calls; tests run a few pairs of solves and compare with tolerances.", "anchors": ["conex/cone_program.cc:78-112", "conex/cone_program.cc:235-533", "conex/linear_constraint.cc:108-175"]}
{"id": "C88", "title": "Centering converges", "statement": "With a fixed barrier parameter, the iterations of Solve (linear system, direction, step size min(1, 2/norm^2), exponential update of the scaling points) converge from every start. If z is the central point of the barrier parameter and h the distance of the starting scaling points from it (the sum of a + 1/a - 2 over all products a of scaling point and slack of z), then the sums of squares of the directions, cut off at 2, add up to at most 10 h; the distance never increases; and from iteration 40 h + 1 on the squared norm is at most (1/2)(1/2)^(2^m) after m further iterations. After a direction of norm at most one the next squared norm is at most 2 norm^2 times the present one. So after 40 h + 1 iterations the point is feasible and optimal up to the gap of the barrier parameter.", "quantifier": "All programs of linear inequalities and convex quadratic costs that determine the unknowns, all starting scaling points in the interior, all barrier parameters with a central point, all numbers of iterations. Exact arithmetic; refinement of the linear systems as configured.", "why_tests_cant": "A bound on the number of iterations over all programs and all starts is a statement about infinitely many runs; tests observe that a few runs end within the configured number of iterations.", "anchors": ["conex/cone_program.cc:336-435", "conex/cone_program.cc:422-426", "conex/linear_constraint.cc:82-168", "conex/equality_constraint.cc"]}
{"id": "C89", "title": "The central path and the number of centering steps", "statement": "A barrier parameter has a central point if and only if the program and its dual have interior points (C - A y > 0, and x > 0 with A'x + Q w = b), and then only one. If so, the number of iterations with a fixed barrier parameter 1/k that are needed from a start with scaling points W is bounded by the data of any pair of interior points: with mu W <= k bs x and nu <= W k cs s, from iteration 40 ((rank + k^2 bs cs x's + (u'Qu)/4)(1/mu + 1/nu) - 2 rank) + 1 on, where u = k bs w - k cs y, all points are feasible and optimal up to the gap of the barrier parameter, and the squared norms of the directions decrease doubly exponentially.", "quantifier": "All programs of linear inequalities and convex quadratic costs that determine the unknowns and have interior points, all starting scaling points in the interior, all barrier parameters, all pairs of interior points. Exact arithmetic.", "why_tests_cant": "Existence of a point that no code computes, and a bound on the number of iterations over all programs and starts, cannot be observed in finitely many runs.", "anchors": ["conex/cone_program.cc:336-435", "conex/cone_program.cc:422-426", "conex/linear_constraint.cc:82-168", "conex/equality_constraint.cc"]}
{"id": "C90", "title": "Solve with its line search solves linear and quadratic programs", "statement": "With the line search enabled, Solve on a program of linear inequalities and convex quadratic costs that has interior points terminates with success, reaches the largest barrier parameter, and returns a feasible point whose value is optimal up to rank / inv_sqrt_mu_max^2: if dinf_upper_bound^2 <= 1/(8 rows), the initial centering steps, final centering steps and iterations suffice for bounds that are given explicitly by any pair of interior points (each pass increases the parameter by at least the factor 1 + dinf_upper_bound^2). In particular every such program can be solved to any accuracy with suitable options. The same holds for every other constraint.", "quantifier": "All programs of linear inequalities and convex quadratic costs that determine the unknowns, have at least one row and have interior points; all options within the stated bounds; all accuracies; all earlier contents of the status block. Exact arithmetic with the real exponential.", "why_tests_cant": "Success and accuracy after a number of iterations that is bounded in advance, for all programs and all options within the bounds, is a statement about infinitely many runs; the failure with other constraints is silent, as Solve reports success.", "anchors": ["conex/cone_program.cc:118-160", "conex/cone_program.cc:235-533", "conex/constraint.h:24-28", "conex/linear_constraint.cc:83-103"]}
{"id": "C91", "title": "Solve without line search solves linear programs", "statement": "Without the line search (the default) the barrier parameter is chosen with the divergence. For linear inequalities DivergenceUpperBound is, wherever it is finite, at least the distance of the scaling point from the central point of the parameter; the chosen parameter has distance at most divergence_upper_bound times the number of rows. If this product is at most 1/32 and maximum_mu is not huge, Solve on a linear program with interior points terminates with success, reaches the largest barrier parameter and returns a feasible point that is optimal up to rank / inv_sqrt_mu_max^2, within iteration limits given explicitly by any pair of interior points. In particular every such program can be solved to any accuracy.", "quantifier": "All programs of linear inequalities that determine the unknowns, have at least one row and have interior points; all options within the stated bounds; all accuracies; all earlier contents of the status block. Exact arithmetic with the real exponential.", "why_tests_cant": "The bound is an inequality between a computed number and an infinite process (the central point, which is never computed); success and accuracy for all programs and options is a statement about infinitely many runs.", "anchors": ["conex/cone_program.cc:31-57", "conex/cone_program.cc:162-214", "conex/cone_program.cc:235-533", "conex/divergence.cc:85-121", "conex/linear_constraint.cc:147-168"]}
{"id": "C92", "title": "Centering converges for second-order and quadratic cones", "statement": "For any mixture of linear inequalities, second-order cones, quadratic cones and convex quadratic costs, iterations with a fixed barrier parameter are all defined from every start. If the parameter has a central point, the squared norms of the directions, cut off at two, add up to at most ten times the distance <w, s> + <w^-1, s^-1> - 2 rank of the start from it; a direction of norm at most one is followed by one whose squared norm is at most twice the product of its squared largest eigenvalue and its squared norm; so after 1 + 40 distance iterations the norms decrease doubly exponentially, and the points are feasible and optimal up to the gap of the parameter.", "quantifier": "All programs of linear inequalities, second-order and quadratic cones and convex quadratic costs that determine the unknowns; all interior scaling points; all barrier parameters with a central point; all numbers of iterations. Exact arithmetic with the real exponential.", "why_tests_cant": "Convergence from every start, with a number of iterations that is bounded in advance, is a statement about infinitely many runs of unbounded length.", "anchors": ["conex/cone_program.cc:235-533", "conex/soc_constraint.cc:123-335", "conex/quadratic_cone_constraint.cc:79-297", "conex/linear_constraint.cc:105-228", "conex/newton_step.h:1-111"]}
{"id": "C93", "title": "Central points of second-order and quadratic cones", "statement": "For any mixture of linear inequalities, second-order cones, quadratic cones and convex quadratic costs that determines the unknowns, a barrier parameter has a central point if and only if the program and its dual have interior points, and then exactly one; so either all parameters have one, or none. Given interior points y and (x, w) of the program and its dual, the number of iterations with a fixed parameter after which the norms decrease doubly exponentially, and the points are feasible and optimal up to the gap, is bounded explicitly by the inner product of x and the slack of y, by the curvature of the costs between w and y, and by how x and the slack compare with the scaling points of the start in the order of the cones.", "quantifier": "All programs of linear inequalities, second-order and quadratic cones and convex quadratic costs that determine the unknowns; all interior scaling points; all positive barrier parameters; all pairs of interior points; all numbers of iterations. Exact arithmetic with the real exponential.", "why_tests_cant": "Existence and uniqueness of a point that no run computes exactly, and an a-priori bound on the length of all runs, cannot be observed by running the code.", "anchors": ["conex/cone_program.cc:235-533", "conex/soc_constraint.cc:123-335", "conex/quadratic_cone_constraint.cc:79-297", "conex/linear_constraint.cc:105-228"]}
{"id": "C94", "title": "Solving second-order cone programs without line search", "statement": "For any mixture of linear inequalities, second-order cones and quadratic cones that determines the unknowns, the bound that DivergenceUpperBound computes from one linear solve is, wherever it is finite, at least the distance of the scaling points from the central point of the parameter; the parameter chosen from it is positive if the slacks are interior and not huge. If the program and its dual have interior points and divergence_upper_bound times the rank is at most 1/32, Solve without line search reports success after a bounded number of iterations, and the array holds a feasible point that is optimal up to rank / inv_sqrt_mu_max^2. Options exist for every accuracy.", "quantifier": "All programs of linear inequalities, second-order and quadratic cones that determine the unknowns and have interior points; all accuracies; all status blocks; all options in the stated range. Exact arithmetic with the real exponential and any correct Cholesky factorization.", "why_tests_cant": "Success and optimality over all programs of three classes of cones, with an iteration bound that is known before the run; a run of a test can show this for one program only and not to more digits than it computes.", "anchors": ["conex/cone_program.cc:31-57", "conex/cone_program.cc:162-214", "conex/cone_program.cc:235-533", "conex/divergence.cc:85-121", "conex/soc_constraint.cc:123-335", "conex/quadratic_cone_constraint.cc:79-297", "conex/linear_constraint.cc:105-228"]}
{"id": "C95", "title": "Iterations close to a central point of matrix inequalities", "statement": "The sum of squares that an iteration reports for its direction is exact for every class of constraint, unlike the norm, which the Lanczos method estimates for matrix inequalities. If it is at most one, then the point of the iteration is feasible, and its objective value is within (rank - normsqrd) / (inv_sqrt_mu^2 b_scaling c_scaling) of the largest; the sum of squares of the next direction is at most twice its square. From a first direction with a sum of squares of at most 1/4 all further iterations are defined, take full steps and converge doubly exponentially.", "quantifier": "All mixtures of real, complex and quaternion matrix inequalities, linear inequalities, second-order cones, quadratic cones and convex quadratic costs that determine the unknowns; all scaling points; all iterations. The gap also with equations. Exact arithmetic with the real exponential, exact eigenvalues of tridiagonal matrices, and any correct Cholesky factorization and linear solver.", "why_tests_cant": "Quadratic convergence of steps along a rational (real matrices) and a polynomial (hypercomplex matrices) approximation of the exponential, over all data, and without the error of the Lanczos estimate; a test sees a few iterations of a few programs in floating point.", "anchors": ["conex/psd_constraint.cc:13-100", "conex/exponential_map_pade.cc", "conex/exponential_map.cc", "conex/hermitian_psd.cc:10-105", "conex/jordan_matrix_algebra.cc", "conex/approximate_eigenvalues.cc", "conex/cone_program.cc:235-533"]}
{"id": "C96", "title": "Solving semidefinite programs from a start near the central path", "statement": "Solve without line search (the default) solves programs with matrix inequalities, if the first direction from the identity is short for some barrier parameter and divergence_upper_bound times the rank is at most 1/32. The trace and the squared norm of the slacks from which the next barrier parameter is chosen determine the squared norm of the direction for every barrier parameter; although the eigenvalues from GetWeightedSlackEigenvalues are approximations, the chosen parameter grows by a fixed factor and the direction for it is short. After a bounded number of iterations Solve returns true with status solved, and the array holds a feasible point that is optimal up to rank / inv_sqrt_mu_max^2. Hence options exist for every accuracy.", "quantifier": "All mixtures of real, complex and quaternion matrix inequalities, linear inequalities, second-order cones and quadratic cones that determine the unknowns, with a short first direction; all options with the stated bounds; all status blocks and matrix entries of the workspace. Exact arithmetic with the real exponential, exact eigenvalues of tridiagonal matrices, start vectors other than zero, and any correct Cholesky factorization and linear solver.", "why_tests_cant": "Success of a whole run for infinitely many semidefinite programs and options, in spite of eigenvalue estimates that may be wrong; a test sees a few programs, and one on which the estimates are good.", "anchors": ["conex/cone_program.cc:235-533", "conex/divergence.cc", "conex/psd_constraint.cc", "conex/hermitian_psd.cc", "conex/approximate_eigenvalues.cc", "conex/hermitian_psd.h"]}
{"id": "C97", "title": "Centering from any start with matrix inequalities", "statement": "With a fixed barrier parameter and from any positive definite scaling points, if no step is too long (step size times the square of every eigenvalue of the direction at most two, which holds whenever the reported norm bounds the direction, or the exact sum of squares is at most two), then every iteration brings the scaling points closer to the central point, by at least a tenth of min(2, normsqrd); all iterations are defined; the sums of squares, cut off at two, add up to at most ten times the distance of the start; and after 1 + 40 distance iterations they decrease doubly exponentially and the points are feasible and optimal up to the gap of the barrier parameter.", "quantifier": "All mixtures of real matrix inequalities, linear inequalities, second-order cones, quadratic cones and convex quadratic costs, and all mixtures of Hermitian matrix inequalities over the real and complex numbers and the quaternions and convex quadratic costs, that determine the unknowns and have a central point; all starts whose runs have no step that is too long; all barrier parameters. Exact arithmetic with the real exponential, exact eigenvalues of tridiagonal matrices, and any correct Cholesky factorization and linear solver.", "why_tests_cant": "A potential function for damped steps along a rational approximation of the matrix exponential, with an iteration bound that is known from the start; a test sees that some runs converge, but not that all do, nor how many iterations they may take.", "anchors": ["conex/psd_constraint.cc:13-100", "conex/exponential_map_pade.cc", "conex/cone_program.cc:235-533", "conex/linear_constraint.cc:105-228", "conex/soc_constraint.cc:123-335", "conex/quadratic_cone_constraint.cc:79-297", "conex/hermitian_psd.cc:33-115", "conex/exponential_map.cc"]}
{"id": "C98", "title": "Central points with matrix inequalities, and the number of iterations from any start", "statement": "For every barrier parameter the program has a central point if and only if the program and its dual have interior points, and the central point is unique. From any start whose runs have no step that is too long, the number of iterations after which the sums of squares decrease doubly exponentially and the points are feasible and optimal up to the gap of the barrier parameter is bounded in advance, by the rank, the inner product of the interior points, the quadratic cost between them, and the factors by which they lie above the scaling points of the start.", "quantifier": "For central points all mixtures of real and Hermitian matrix inequalities, linear inequalities, second-order cones, quadratic cones and convex quadratic costs that determine the unknowns; for the number of iterations those without Hermitian constraints and those with Hermitian constraints and costs only; all barrier parameters; all interior points; all starts whose runs have no step that is too long. Exact arithmetic with the real exponential, exact eigenvalues of tridiagonal matrices, and any correct Cholesky factorization and linear solver.", "why_tests_cant": "Existence of central points is a compactness argument over all points of the interior, and the bound on the number of iterations is for all programs and starts; a test sees single runs only.", "anchors": ["conex/psd_constraint.cc:13-100", "conex/exponential_map_pade.cc", "conex/cone_program.cc:235-533", "conex/linear_constraint.cc:105-228", "conex/soc_constraint.cc:123-335", "conex/quadratic_cone_constraint.cc:79-297", "conex/hermitian_psd.cc:33-115"]}
{"id": "C99", "title": "Solving semidefinite programs from the identity", "statement": "Solve without line search, started at the identity, solves every program with interior points to any accuracy if no step of the initial centering is too long: the identity need not be near the central path. The number of initial centering steps that suffices is bounded by the rank, the largest barrier parameter and data of the interior points. After it the barrier parameter grows by a constant factor in each pass until the largest one, the final centering succeeds, Solve reports success, and the array holds a feasible point whose value is optimal up to the rank over the square of the parameter. If the matrix inequalities have order one, interior points suffice.", "quantifier": "All mixtures of real matrix inequalities, linear inequalities, second-order cones and quadratic cones, and of Hermitian matrix inequalities over the real and complex numbers and the quaternions, that determine the unknowns and have interior points; all accuracies; all contents of the status block and of the solver's memory. Exact arithmetic with the real exponential, exact eigenvalues of tridiagonal matrices, and any correct Cholesky factorization and linear solver.", "why_tests_cant": "Success for every program and accuracy needs options that depend on the program; a test runs single programs with given options, and cannot tell slow convergence from none.", "anchors": ["conex/cone_program.cc:235-533", "conex/psd_constraint.cc:13-100", "conex/exponential_map_pade.cc", "conex/linear_constraint.cc:105-228", "conex/soc_constraint.cc:123-335", "conex/quadratic_cone_constraint.cc:79-297", "conex/hermitian_psd.cc:33-115"]}
{"id": "C100", "title": "Centering converges with equations", "statement": "For programs with equations, iterations with a fixed barrier parameter are defined whenever there are multipliers and no supernode is empty, even if pivots are replaced. As long as no pivot of the indefinite factorization is replaced and no step is too long, the computed point satisfies the equations in every iteration (with right-hand sides scaled like the costs); every iteration brings the scaling points closer to the central point of the program with equations, by at least a tenth of min(2, normsqrd); the sums of squares, cut off at two, add up to at most ten times the distance of the start; a sum of squares of at most one is followed by at most twice its square; and after 1 + 40 distance iterations they decrease doubly exponentially and the points are feasible, including the equations, and optimal up to the gap of the barrier parameter. In particular a solve that reports success returns a point that satisfies the equations.", "quantifier": "All programs of equations and mixtures of real matrix inequalities, linear inequalities, second-order cones, quadratic cones and convex quadratic costs, or of equations, Hermitian matrix inequalities and convex quadratic costs, that have multipliers belonging to one equation each and a central point; all interior scaling points and barrier parameters; all runs in which no pivot is replaced and no step is too long. Exact arithmetic with the real exponential, exact eigenvalues of tridiagonal matrices, and any correct linear solver.", "why_tests_cant": "The linear system is indefinite and the multipliers have no scaling points, so nothing in a run with equations is monotone except the distance from an unknown point; tests with equations compare the final point of single programs.", "anchors": ["conex/equality_constraint.cc:1-37", "conex/equality_constraint.h:1-57", "conex/cone_program.cc:235-533", "conex/cone_program.h:60-100", "conex/RLDLT.h:299-430", "conex/kkt_solver.cc"]}
{"id": "C101", "title": "Central points with equations exist exactly if there are interior points", "statement": "A program with equations has a central point if and only if the program and its dual have interior points: a point that satisfies the equations and strictly satisfies the inequalities, and dual points in the interior of their cones that balance the costs together with multipliers of the equations. Up to the multipliers the central point is unique. The number of iterations from any start, with a fixed barrier parameter, is bounded by an explicit number computed from such interior points and their comparison with the scaling points of the start, as long as no pivot is replaced and no step is too long; the equations hold in all iterations.", "quantifier": "All programs as in C100 whose inequalities, costs and equations determine the unknowns other than multipliers; all positive scalings and barrier parameters; all interior points. Exact arithmetic, as in C100.", "why_tests_cant": "Existence and uniqueness are statements about all real points, and the number of iterations is a bound for all starts and all interior points; a test runs one program from one start.", "anchors": ["conex/equality_constraint.cc:1-37", "conex/equality_constraint.h:1-57", "conex/cone_program.cc:235-533", "conex/cone_program.h:60-100", "conex/RLDLT.h:299-430", "conex/kkt_solver.cc"]}
{"id": "C102", "title": "The post order lists the separators each supernode takes over", "statement": "If the caller's vector has an entry for every clique, the post order of `PickCliqueOrder` keeps the caller's entries and appends, at clique k, exactly the non-empty separators contained in the supernode of k, once each and in clique order; the clique of such a separator is eliminated before k. A vector too short for one of these separators gives an exception. Every non-empty separator should be listed: it is not when it is spread over several supernodes.", "quantifier": "for every list of sorted index sets, every root, leaf restriction and caller's vector", "why_tests_cant": "The unit test has one chain of nested cliques, where every separator lies inside one supernode; whether a separator is split depends on the fill-in.", "anchors": ["conex/clique_ordering.cc: FindSupernode, PickCliqueOrder"]}
{"id": "C103", "title": "A rank one update turns a factorization of A into one of A + sigma w wT", "statement": "If an RLDLT object holds a factorization of A with non-zero pivots and the entries stay finite, rankUpdate(w, sigma) leaves a factorization of A + sigma w wT with the same permutation. With positive pivots, and sigma not negative or the new matrix positive definite, the entries stay finite and the pivots positive. An object without a decomposition becomes a factorization of sigma w wT if the first entry of w is not zero. Zero pivots, downdates to singular matrices and the reported sign should be handled as well: they are not.", "quantifier": "for every size, factorization, permutation, vector and factor over every ordered field", "why_tests_cant": "The loop relies on an invariant between partially updated columns, the remaining vector and a running scalar; nothing in the repository tests it.", "anchors": ["conex/RLDLT.h: rldlt_inplace<Lower>::updateInPlace, rankUpdate, isPositive"]}
{"id": "C104", "title": "The sign of a dense factorization says whether the matrix is semidefinite", "statement": "If RLDLT::compute replaces no pivot, isPositive says exactly whether the quadratic form of the symmetric matrix given by the lower triangle is nowhere negative, and isNegative whether it is nowhere positive. This should hold for all matrices: replaced pivots break it in both directions.", "quantifier": "for every size and matrix over every ordered field", "why_tests_cant": "The sign is a claim about the quadratic form at all vectors, after pivoting; nothing in the repository tests it.", "anchors": ["conex/RLDLT.h: rldlt_inplace<Lower>::unblocked, compute, isPositive, isNegative"]}
{"id": "C105", "title": "Solving with a dense factorization and reconstructing the matrix", "statement": "For every RLDLT object that holds a factorization of A, reconstructedMatrix returns A, and solve solves A x = b if the pivots are above the smallest normal number. If compute replaces no pivot, this holds for the symmetric matrix given by the lower triangle. It should hold for every invertible matrix: replaced pivots break it.", "quantifier": "for every size, matrix, permutation and right-hand side over every ordered field", "why_tests_cant": "Correct handling of the permutation on both sides for all sizes and pivot orders; nothing in the repository tests these functions.", "anchors": ["conex/RLDLT.h: _solve_impl, solveInPlace, reconstructedMatrix, compute"]}
{"id": "C106", "title": "Peirce components in the spin factor", "statement": "For a unit vector q the components that TransformToPeirceComponents returns for x are a (1, q), b (1, -q) and (0, p) with <p, q> = 0, and they add up to x; EssentialVectorOfDiagonalPeirceComponents returns the projection of the essential vector on q. The sizes in the code do not fit, so both are undefined for every vector of the announced size; with size n + 1 and components of n + 1 entries the statements are right.", "quantifier": "for every size, unit vector q and vector x over every field in which 2 is not 0", "why_tests_cant": "No code calls these functions, so no test reaches them; that no vector at all has a fitting size is a statement about all sizes.", "anchors": ["conex/soc_constraint.cc: TransformToPeirceComponents, EssentialVectorOfDiagonalPeirceComponents, PeirceDecompType"]}
{"id": "C107", "title": "The tests for equal and for Hermitian matrices", "statement": "IsHermitian accepts a matrix of hypercomplex numbers exactly when it equals its adjoint up to rounding, and IsEqual accepts two matrices exactly when they are equal up to rounding. Proved for matrices without NaN: an accepted matrix differs from its adjoint by at most 1e-12 in each entry, one that differs by at most 1e-12 / m is accepted; for IsEqual the bound is 1e-8. Violated: NaN in every component makes every answer yes, and the tolerance is absolute.", "quantifier": "for every number of components, order, entries over every ordered field, and NaN", "why_tests_cant": "The tests of the repository call these functions as oracles and only on data that pass; whether they reject what they should is not tested.", "anchors": ["conex/jordan_matrix_algebra.cc: IsEqual, IsHermitian"]}
{"id": "C108", "title": "Norm and status members of the dense factorization", "statement": "The norm that rcond uses is the largest column sum of the matrix of which the object is the decomposition, and info and regularization_used can be read from every initialized object. Holds after compute. Violated after rankUpdate: the norm stays that of the old matrix, and for an object that rankUpdate initialises the three members are uninitialised.", "quantifier": "for every size above 0, matrix, previous state of the object, vector and factor over every ordered field", "why_tests_cant": "Nothing in the repository calls rcond or rankUpdate; an uninitialised double often reads as 0 and goes unnoticed.", "anchors": ["conex/RLDLT.h: compute, rankUpdate, rcond, info, regularization_used"]}
{"id": "C109", "title": "Linear inequalities through the MATLAB class", "statement": "AddLinearInequality and Maximize of the MATLAB class refuse arrays whose sizes do not fit, number the constraints in order, and read and write inside of their arrays only. Proved for arrays that fit. Violated: an affine term that is too short is read beyond its end, a cost vector that is too short makes the library write beyond the end of y, one that is too long is dropped silently, and a matrix with a wrong number of columns is accepted.", "quantifier": "for every number of variables, list of inequalities with their sizes, cost vector, options and answers of the linear algebra", "why_tests_cant": "The MATLAB tests pass matching sizes only; reading or writing a few entries beyond an array often goes unnoticed.", "anchors": ["interfaces/matlab/util/ConexProgram.m: AddLinearInequality, Maximize", "interfaces/conex.cc: CONEX_AddDenseLinearConstraint, CONEX_Maximize"]}
{"id": "C110", "title": "A solver built from given supernodes equals the one built from the index sets", "statement": "Given the elimination order, supernodes and separators that the solver computes for index sets, the constructor that takes them from the caller builds the same solver; arguments that do not fit the index sets are rejected.", "quantifier": "for all lists of duplicate-free index sets and dual variables", "why_tests_cant": "Nothing in the repository calls this constructor, and equality is needed for all index sets.", "anchors": ["conex/kkt_solver.cc: SupernodalKKTSolver::SupernodalKKTSolver (118-130)", "conex/supernodal_solver.cc: SupernodesToData"]}
{"id": "C111", "title": "The MATLAB class returns the dual variables of every constraint", "statement": "After a solve, whatever its status, `Maximize` of the MATLAB class returns for every linear or matrix inequality an array with its dual variable: the scaling point, divided by the last barrier parameter and the scaling of the cost unless the program was found infeasible.", "quantifier": "for all programs with linear and matrix inequalities and all outcomes of the solve", "why_tests_cant": "Covers all outcomes of a solve, including a failed first factorisation.", "anchors": ["interfaces/matlab/util/ConexProgram.m: GetDualVariable, Maximize", "conex/cone_program.h: GetDualVariable (118-134)"]}

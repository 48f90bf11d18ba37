# Formal model of conex in Lean 4 — design

The code under study is `/repo` (ToyotaResearchInstitute/conex, C++). It is read as text, never
built. The model lives in `lean/Verif`. The target prover is Lean 4.33.0 with Mathlib.

## 1. Layout

| Folder | Content |
|---|---|
| `lean/Verif/Model/*.lean`  | Transliteration of the C++ functions. Every definition cites file and lines, and says where it is simplified. |
| `lean/Verif/Spec/*.lean`   | Small independent specifications. They mention no helper of the model except the data types. |
| `lean/Verif/Lemmas/*.lean` | Helper lemmas. |
| `lean/Verif/Props/*.lean`  | The property theorems, each followed by an `example` that meets its hypotheses on a concrete non-trivial case. |

## 2. Modelling conventions

* **Integers.** `int`/`size_t` are `Nat` or `Int` (unbounded) except where negative or overflowing
  values are the point (C07, C08, C44).
* **Floating point.** `double` is modelled by an exact field: an arbitrary linear ordered field,
  `ℚ` for concrete witnesses, `ℝ` where square roots, exponentials or logarithms are used. Rounding,
  NaN and infinities are outside the model unless a property names them (F20).
* **Loops** become structural recursion, folds, or fuel-bounded recursion; where fuel is used a
  theorem shows how much fuel is enough, or the result type has a "does not terminate" outcome.
* **Vectors indexed by clique or variable** are either lists with `Option` look-up or functions
  `ℕ → α` together with a range theorem. Out-of-range access, null dereference and uninitialised
  reads are distinct outcomes (`ub`), exceptions are distinct outcomes (`throws`).
* **External numerics** (eigenvalues, dense Cholesky, Lanczos, the KKT factorisation inside `Solve`)
  are parameters ("oracles") of the model. What a theorem assumes about them is a hypothesis in its
  statement.
* **Violations.** If the code does not satisfy a property, the negation is proved on a concrete
  witness, and the strongest version that does hold is proved under the suffix `_partial`.

## 3. Properties: what is modelled and how it is proved

| Id | Model | Plan |
|---|---|---|
| C01 | `ConstraintManager::AddConstraint/AddEqualityConstraint` (constraint_manager.h), `IsUnique` | exact acceptance criterion by case analysis; failure leaves the state equal |
| C02 | same, plus call sequences as a fold | invariant by induction over the call list |
| C03 | same | invariant by induction |
| C04 | same | prefix-preservation over call sequences |
| C05 | `interfaces/conex.cc`, `Program::AddConstraint`, `AddLinearCost`, `AddQuadraticCost` | `Model/CApi`: truth table per call (`C05_new_calls`, `C05_dense_calls`, `C05_addConstraint`); **violated** for several calls (F4, F8, F36, F37): witnesses, and the positive theorem for valid arguments |
| C06 | handle check `SAFER_CAST_TO_Program`, `Program::InitializeWorkspace` | **violated** (F1): after the first solve each later edit fails, proved for all programs and any number of solves (`C06_locked_violated`); before the first solve it is accepted |
| C07 | `APIConvertSolverConfiguration`, `CONEX_SetDefaultOptions` | `Model/Options`: transfer is exact and injective; **violated** for two fields (F7) which keep their old content: exact condition and witness |
| C08 | `CONEX_GetIterationStats` | `Model/IterStats` on the statistics left by the model of `Solve`: exact for all Int indices (`C08_index`), history by loop invariant (`C08_solve_partial`); **violated** before a solve (F13) and for stale entries (F38) |
| C09 | `get_size_aligned`, all `SizeOf`/`Initialize`/bind functions, `Program::InitializeWorkspace` | `Model/Layout`: layout as list of (name, offset, size); disjoint, inside, aligned, for all lists of constraints; **violated** for a second-order cone with one row (F34) |
| C10 | `WorkspaceStats`, statistics writes of `Solve`, warm start re-use | `C10_slot_partial`, `C10_same_limit_partial`: in range up to the limit of the allocating solve; **violated** for warm start with a larger limit (F5): witness hits `c_scaling` |
| C11 | `clique_ordering.cc`: `PickCliqueOrderHelper`, `PickCliqueOrder`, `GetCliqueEliminationOrder`, weights | loop invariant; termination by a measure (fuel bound proved sufficient) |
| C12 | `FindSupernode`/`FillIn`, `tree_utils.cc: PathInTree` | tree lemmas: path to the least common ancestor, owner invariant |
| C13 | same | invariant |
| C14 | same | invariant: separator ⊆ parent front, owner is a proper ancestor, ancestors come later |
| C15 | `kkt_solver.cc`, `supernodal_assembler.cc`, `SupernodesToData`-style relabelling | list-permutation lemmas |
| C16 | `SizeOfKKTSystem` vs. size of the sparse matrix | **violated** for a variable in no constraint (F3): witness; equality under coverage |
| C17 | `triangular_matrix_workspace.{h,cc}` | offsets as prefix sums; lookup correctness |
| C18 | `supernodal_assembler.cc`, `supernodal_solver.cc` scatter | **violated** by the direct update path with fill-in (F2): witness; sum theorem for the indirect path and for the direct path without fill-in |
| C19 | `AssembleSchurComplementResiduals` (constraint_manager.h) | fold = sum |
| C20 | `block_triangular_operations.cc` | block elimination over an arbitrary field; exact solve by induction over blocks |
| C21 | `kkt_solver.cc` solve paths, iterative refinement | permutation algebra, fixed point |
| C22 | `elimination_ordering.cc: IsPerfectlyOrdered` | exact iff against an independent definition |
| C23 | `elimination_ordering.cc: MaximumCardinality…` | invariant of the greedy loop |
| C24 | `IsChordal` | Tarjan–Yannakakis theorem, in both directions, or `_partial` |
| C25 | `Program::Solve` control flow as a state machine with oracles | invariant of the loop; cold start never undefined |
| C26 | same | case analysis on exits |
| C27 | same | **violated** (F16): two witness runs; positive theorem without warm start, before the forced centering phase |
| C28 | same, `CONEX_DEMAND` | **violated** (F4): general theorem; the second demand is unreachable in admissible configurations |
| C29 | step size rule in `Solve` | real arithmetic |
| C30 | `GetWeightedSlackEigenvalues`, norms | **violated** by sentinel values (F10): witness; for eigenvalues within ±30000 the aggregate is the data of the concatenated spectrum |
| C31 | `divergence.cc` | each branch is a quadratic equation; root selection proved maximal for positive spectra; **violated** for negative spectra (F29) |
| C32 | `MinimizeNormInf` | ordered field argument |
| C33 | `LinearConstraint::PerformLineSearch`, `FindMinimumMu`, `ComputeMuFromLineSearch` | interval intersection lemma over IEEE extended numbers; zero slopes excluded and shown necessary (F33) |
| C34 | `PreprocessLinearInequality`, `AppendRow` | feasible-set equality; degenerate row (F20) excluded and shown necessary |
| C35 | `linear_constraint.cc` | matrices over a field, exponential as a positive function, induction over steps |
| C36 | `soc_constraint.cc`, `quadratic_cone_constraint.cc` steps | proved: spin factor over an abstract positive semidefinite form, `sqrt`/`exp` as parameters |
| C37 | Schur data of both | proved for the second-order cone and for `initialize`; accumulation of the quadratic cone **violated** (F17) |
| C38 | `GetDualVariable`, `get_dual_variable` per cone | `Model/DualVariables`: exact contents of the array; linear and dense matrix inequalities proved; **violated** for second-order and quadratic cones (F15), octonions and imaginary parts (F46), equations `Props/ReadDual`: `C38_program_invalid`, `C38_program_linear`, with the scale read from the statistics of the program. |
| C39 | `quadratic_epigraph.cc`, `AddQuadraticCostEpigraph` | proved: algebraic iff for both builders |
| C40 | `equality_constraint.cc` | block matrix algebra |
| C41 | `NonZeroSubMat`, `CONEX_AddQuadraticCost` | `Model/CostInput`: PSD matrices exact, as value and as contribution to the linear system; others **violated** (F9) |
| C42 | `jordan_matrix_algebra.cc` | `Model/Hyper`: component matrices and the two tables; all laws from table facts checked by the kernel, for all sizes; identification with Mathlib's `ℂ` and `ℍ` |
| C43 | updates of `hermitian_psd.cc`, `linear_constraint.cc`, `soc_constraint.cc`, dispatch in `cone_program.h` | `Model/Updates`: what each accepted call writes and leaves; Hermitian data as an invariant of any sequence of calls |
| C44 | all `UpdateLinearOperator`/`UpdateAffineTerm` | exact acceptance table per constraint and per program; **violated** (F18, F50, F99) for negative indices, large variables and the components of octonions that the code means to refuse |
| C45 | `exponential_map*.cc`, `GeodesicUpdate` | `Model/MatrixExp`: ring identities in a matrix ring, action on eigenvectors; symmetry and exactness of the update; unchanged exactly for the zero direction |
| C46 | `GetMaxWeightedClique…`/tree building in `clique_ordering.cc` | Greedy choice of every tree edge; affinity is specified independently of the memoised intersection table |
| C47 | `IsChordal`, `ExtractChordlessPath` | **violated** (F25): witnesses; what the first three entries are is proved |
| C48 | `MaximumDegreeVertices` | **violated** (F11): witness; exact for vertices other than 0 |
| C49 | limits of the barrier parameter | **violated** (F26): in every configuration with threshold above `maximum_mu` no flag is ever set |
| C50 | exits of `Solve` | **violated** (F27): witnesses; holds for normal exits (C25) |
| C51 | `ComputeMuFromDivergence` | case analysis on C31, C32; explicit value of the norm in the last fallback |
| C52 | `Program::AddConstraint` dispatch | **violated** for named objects (F32): witnesses; temporaries proved |
| C53 | `LinearConstraint` Schur, inner products | **violated** for larger systems (F30); equal size proved |
| C54 | `AddConstraint`, Schur of the linear inequality | **violated** for more columns than variables (F31); fewer columns proved |
| C55 | `Solve(b, …)`, `AddLinearCost` | **violated** (F37) for every program and every vector of another length; exact for the right length |
| C56 | preparation of dual variables, `cone_program.cc` 499-516 | the dual equation for every mix of linear and matrix inequalities (reals, complex numbers, quaternions) and equations; cone membership exactly characterised for linear and real matrix inequalities; **violated** for second-order and quadratic cones (F39), octonions (F46), quadratic costs (F51), and the cone |
| C57 | `psd_constraint.cc` | common basis of W and S: exact criterion (`C57_iff`); **violated** (F42) with the norm that Lanczos reports; holds if that norm is a bound, and for order one |
| C58 | `AsymmetricLanczos`, `PrepareStep`, `GetWeightedSlackEigenvalues` | `Model/Lanczos`: orthonormality by induction over the recurrence, Ritz values as Rayleigh quotients; **violated** (F44) for zero slack |
| C59 | Schur of `DenseLMIConstraint` | traces; definiteness in the common basis; **violated** (F45) for variables without a matrix |
| C60 | `hermitian_psd.cc` steps | `Model/HermitianLmi`: left multiplication as a real matrix (`Hyper.lmat`) carries everything to symmetric real matrices; even Taylor polynomials are positive; **violated** (F43) for octonions |
| C61 | `ApproximateEigenvalues`, `PrepareStep`, `GetWeightedSlackEigenvalues` | the recurrence is the one of `Model/Lanczos` for `lmat`; exact criterion for being defined; **violated** for zero slack (F44) and octonions (F48) |
| C62 | Schur of `HermitianPsdConstraint` | cyclic trace without associativity; definiteness via `lmat`; **violated** (F45, F47) for variables without a matrix and for an affine term that was never set |
| C63 | quadratic cost updates | `Model/Updates` with `costSchur` and the entries read by assembly; holds on and below the diagonal, **violated** above (F49) |
| C64 | Python class `Conex`, `ConexProgram.py` 58-242 | `Model/PythonWrapper` on top of `Model/CApi`, `Spec/PythonWrapper`; any mix of four kinds of calls served; **violated** for the others (F52-F55) |
| C65 | `blkdiagPrg.m`, `CleanLinear.m`, `coneBase.m` (`Symmetrize`), `BuildMask.m`, `BinaryPsdCompletion.m` | `Model/Matlab`, `Spec/Matlab`; proved if every entry with a cost occurs in an equation, one half always; **violated** otherwise (F56) |
| C66 | `ExtractConstraintMatrices.m` | `Model/Matlab` `extract`, `Spec/MatlabExtract`; proved after `blkdiagPrg`; for other programs an exact condition (F57) |
| C67 | `conex.m`, `ConexPreprocess.m`, `EliminateFreeVars.m` | contracts for `\` and `spnull`; proved without free variables and with one, and for `ConexPreprocess` with any number; **violated** otherwise (F58-F61) |
| C68 | `TriangularMatrixOperations` in `supernodal_solver.cc` | `Model/ColumnFactor`; recurrence of the columns, then positive pivots by back substitution (`Lemmas/PosDef`); proved if no supernode is empty, `ApplyInverseOfTranspose` if no front is empty; **violated** otherwise (F62) |
| C69 | `block_triangular_operations.cc` | Schur complements of a positive definite matrix are positive definite, induction over blocks (`Lemmas/CholeskyAccept`); converse from L Lᵀ with non-zero diagonal |
| C70 | `interfaces/conex.cc`, `ConexProgram.py` | entries written as a function of the outcome of `Solve` (`Model/SolutionArray`), array length from `self.m`; violated when `self.m` was overwritten |
| C71 | `cone_program.cc`, `constraint.h`, `*_constraint.cc` | per cone: ⟨w, s(z)⟩ bound from the direction (`item_gap`), summed over the assembled system (`program_gap`), carried through the steps (`run_good`) and the loop of `Solve` (C26); **violated** when the centering steps run out (F65) and by the norm of matrix inequalities (F42) |
| C72 | `cone_program.cc` 438-468, `*_constraint.cc` | per cone `k⟨c,x⟩ - ⟨A'x,y⟩ = rank - |d|²` from a bilinear form (`form_id`), summed over the assembled residuals (C19) and the linear system; **violated** for linear inequalities with fewer columns than variables (F30, F66) |
| C73 | `cone_program.cc` 488-497, 441-452 | `by` is attained and `cx` an upper bound (C71, C72), the flags of the loop (C26) turn them into bounds of order `√threshold`; **violated** by feasible programs and by bounded ones whose optimal value is large (F67) |
| C74 | `cone_program.cc` 338-452: one iteration composed from the models of its parts (`Model/Iteration`) | proved for linear, second-order and quadratic cones with convex quadratic costs (`C74_vector`: hypotheses on the program only); iterations are defined with matrix inequalities too (`C74_defined`, `C74_forever`); the bounds with matrix inequalities or equations need the norm to bound the direction (F42) and no replaced pivot (F22). Everywhere: no shifted block (F2), every unknown occurs (F3), no QR mode. |
| C75 | Whole `Solve` | `Model/WholeSolve`: `Solve` composed from `Model/Solve` (control flow) and `Model/Iteration` (numerics); the line search, the divergence bound and the KKT error stay answers from outside (computed in `Model/WholeSearch`, C90, C91) | `C75_solve_partial`: defined, and a successful return with last norm at most 1 yields a feasible point with the stated gap, all hypotheses about program, options and external functions. `C75_refines`: every result, on cold and warm starts, is one of `SolveLoop.solve` for some oracle. `C75_centered`: with `final_centering_tolerance` at most 1 and `max_iterations` at most `final_centering_steps` + 2, the loop can be left successfully only after a short direction (`Lemmas/WholeExit`), and success alone gives feasibility and gap. Partial: with other options a successful return does not imply the norm bound (`C75_unbounded_violated`, F86); QR mode and matrix cones are not covered; warm starts are C87. |
| C76 | `exponential_map.cc` 5-12, 67-111 | embed into real matrices (`lmat`), induct over the five steps of the loop: the two running terms are the even and odd terms, the symmetrizations do nothing. Positive definite if `w + w s w` is (pairs of terms `M^{2i} + M^{2i+1}/(2i+1)`); **violated** without this condition (F68); octonions not covered |
| C77 | `interfaces/python/ConexProgram.py` 11-56, 244-277 | model numpy matrices by shape and entries with broadcasting; invariant of the loop over the constraints (`Inv`), build by the methods of the class (`build_ok`). **Violated** by two vector inequalities, by a second call, by a column of affine terms, by the methods `New…` (F69) |
| C78 | cone_program.cc 226-233, 535-552, kkt_solver.cc 133-162 | `Model/FeasibleObjective` composes a cold `Initialize`, the systems of the constraints and `Assemble`, and the overload of `Solve` with an objective. `C78_defined`: defined for all kinds of constraints; `C78_value`: `b'z = β - ½ Σ trace(slack)` for all z; `C78_bounded`: bounded on the feasible set, with bounded slacks at high values (a strictly feasible dual); `C78_solve_partial`: without equations the program passed on has this objective. Violated with equations (F70). |
| C79 | `approximate_eigenvalues.cc` 147-171, `jordan_matrix_algebra.cc` 239-275 | Reduce both recurrences to the chain of `Lemmas/Lanczos` with `W = 1` (hypercomplex: on `lmat A`). Ritz values from `Chain.ritz`. Exactness: right multiplications with units commute with `A`, so `v_j e_c` is an orthonormal basis in which `A` is block diagonal with the tridiagonal matrix as each block. Definedness: a breakdown is a linear dependency of `r, A r, …`. |
| C80 | `approximate_eigenvalues.cc` 37-134, `jordan_matrix_algebra.cc` 277-377 | Polynomials are vectors `p(Aᵀ) r` (hypercomplex: matrices `p(Aᵀ)` stacked as vectors, with the trace as inner product); the shift is multiplication with `Aᵀ` as long as the degree stays below the length. Each run then is a run of `Lemmas/Lanczos`; bounds and exactness follow from the chain. |
| C81 | jordan_matrix_algebra.cc 17-58, 212-216 | Embed x as a real symmetric matrix that commutes with d units; at most n distinct eigenvalues, so a monic polynomial of degree n annihilates x and the least squares problem has residual zero; each eigenvalue is then a root of the companion matrix. With n distinct eigenvalues the list is exact. For the identity any basic least squares solution gives t^2 - 1 or t^2 - t. |
| C82 | jordan_matrix_algebra.cc 218-237 | Invariant after i columns: the first i are orthonormal and orthogonal to all others; each is a combination of the columns up to the same place; each later column differs from its start by a combination of the first i. A zero column gives a vanishing combination with coefficient 1. |
| C83 | `coneBase.m` 16-262 | index lists as lists, 1-based; the operations on one row; proved; `indxNNeg` **violated** with sizes 0 among others (F75) |
| C84 | `coneBase.m` 302-392 (`FindMustVanish`) | loops over a column make one pass with the whole vector; proved for one diagonal entry, with the exact result; **violated** otherwise (F76-F78) |
| C85 | `interfaces/matlab/conex.m` 1-89, `util/ConexProgram.m` | `Model/MatlabRun.lean` runs `conex` on the models of the preprocessing (C65-C67), `coneBase` (C83) and the C interface, with the library as a parameter. Soundness by strong duality of the inequalities, carried back through `C67`; totality with the defaults; one theorem per way to fail |
| C86 | `conex/cone_program.cc` 499-516, `conex/cone_program.h` 118-134, `interfaces/conex.cc` 114-122 | `Model/WholeSolve` now prepares dual variables after the loop (`prepareDuals`), `Model/WholeDual` reads them with the scale taken from the statistics. The dual equations follow from the solved system (C56). For the cone: the dual point of the last direction and the prepared one have the same image, the prepared one is the nearest in the new scaling, so its distance is at most that of the other, which is of second order by the exponential. `C86_certificate_partial`, `C86_centered` (options as in `C75_centered`), `C86_violated` |
| C87 | `conex/cone_program.cc` 78-112, 235-533 | `Model/WholeSolve.solveAt` starts from any program state (abandoned warm starts included); `Model/Session` chains calls. Invariant of the loop for any start: scaling points in the interior, scalings positive, room in the statistics block; every iteration is one of C74. `C87_resume_partial` (one call), `C87_session_partial` (a sequence), `C87_centered` (options as in `C75_centered`). Not covered: warm starts after a call that prepared dual variables (`C87_violated`, F87) and warm starts with more iterations than the last cold one (F5, C25). |
| C88 | `conex/cone_program.cc` 331-445 (an iteration at fixed barrier parameter), `linear_constraint.cc` | No new model: `Iteration.iterate` (C74). Spec: central point and distance, stated with slacks and scaling points only. `Lemmas/CenteringScalar`: scalar inequalities for the exponential update; `Lemmas/Centering`: the Newton equations and monotonicity give (a) quadratic convergence after a direction of norm at most one, (b) a decrease of the distance by `min(2, normsqrd)/10` in every step. `C88_quadratic`, `C88_centering`, `C88_optimal`. |
| C89 | as C88 | `Lemmas/CentralPoint`: a convex quadratic function with a logarithmic barrier attains its minimum (sublevel sets are compact) and is stationary there; `Lemmas/CentralExists` puts this together from the constraints, proves uniqueness, and bounds the distance of C88 by any pair of interior points. `C89_central`, `C89_iterations`. |
| C90 | `conex/cone_program.cc` 118-160, 235-533; `constraint.h` 24-28; `linear_constraint.cc` 83-103 | `Model/WholeSearch` closes the model of `Solve`: the line search (two linear solves, the intervals of the constraints, their intersection) and the KKT error are computed, not given. `C90_refines`: it refines `Model/WholeSolve` for suitable answers, so C72, C75, C86 hold for it. `C90_converges`: initial centering reaches norm `dmax/2` (C88, C89), then every pass finds a parameter at least `1 + dmax^2` times the last (the direction is affine in the parameter, `SearchNewton`, and the full step halves the distance, `SearchGrow`), then final centering. `C90_solvable`: options exist for every accuracy. `C90_stuck`: with any constraint other than linear inequalities, equations and costs the parameter of the result is the lower limit; `C90_stuck_violated`: success at a point 10000 from the optimal value (F88). Needs non-default options: the defaults are `enable_line_search = 0` and `dinf_upper_bound = 1`. |
| C91 | `conex/cone_program.cc` 31-57, 162-214, 235-533; `divergence.cc` 85-121 | `Model/WholeSearch` also computes the divergence (one linear solve, the extreme weighted slacks and their traces of all constraints, C51, C52), so no step of `Solve` is an outside answer. `C91_bound`: the weighted slacks minus the ones of the central point are orthogonal to the rows (`DivergencePoint`), hence the bound. `C91_chosen`: with C51. `C91_converges`: after initial centering the norm is small, hence the weighted slacks are close to 1, the divergence of a parameter `1 + tau` times the last is below the limit (`DivergenceGrow`), so the chosen one is at least that large, and the distance to it is small, so that centering gets close again (`SearchPhases`, shared with C90). `C91_solvable`: options exist for every accuracy. Needs a smaller `divergence_upper_bound` than the default 1. |
| C92 | the loop of `conex/cone_program.cc`; `soc_constraint.cc` 123-335; `quadratic_cone_constraint.cc` 79-297 | Every row of a linear inequality and every cone is one cell of `Spec/ConeCentering` (head and tail, determinant, inverse). `Lemmas/ConeCell`: spin factors with common frames, the fundamental formula, the scalar inequality summed over frames. `Lemmas/ConeStep`: in one cell the step lowers the distance to the central point by the square of the direction, up to the term which the equations make cancel; and the next direction is quadratically small. `Lemmas/ConeItem`: the three constraint models are cells (rows have the zero form and weight 1/2). `Lemmas/ConeCentering`: sums over cells, the dual equations, and iteration. `C92_quadratic`, `C92_centering`, `C92_optimal` extend C88 to these cones. |
| C93 | as C92 | `Lemmas/ConeBarrier`: a convex quadratic function with the logarithmic barrier of a product of cones attains its minimum, if there are interior points of the program and its dual (coercivity, compactness, derivative along the unit vectors). `Lemmas/ConeExists`: this is the central point of `Spec/ConeCentering`; it is unique by the equality case of the reversed Cauchy inequality; its distance from the scaling points is bounded with any pair of interior points. `C93_central`, `C93_iterations` extend C89 to these cones. `Lemmas/Costs`: what C89 and C93 share. |
| C94 | as C91, with `soc_constraint.cc` 123-335 and `quadratic_cone_constraint.cc` 79-297 | Extends C91 to all cones of C92. `Lemmas/ConeWeighted`: the two eigenvalues that a cone contributes have the trace and determinant of the weighted slack, and bound it in the order of the cone. `Lemmas/ConeDivergence`: the list of all eigenvalues, from which the code's `t` is computed, and the bound on the distance. `Lemmas/ConeSolve`: the regime of the loop (`SearchSolve`, shared with C90 and C91) and the start. `C94_bound`, `C94_chosen`, `C94_converges`, `C94_solvable` as in C91. |
| C95 | `psd_constraint.cc` 13-100, `hermitian_psd.cc` 10-105, `conex/cone_program.cc` 235-533 | `Lemmas/StepScalar`: the approximations of the exponential by the code agree with `1 + x + x²/2` up to a multiple of `x³` on `[-1, 1]`. `Lemmas/TraceCentering`: quadratic convergence of one matrix inequality in a basis that diagonalises `W S`. `Lemmas/MatrixItem`: the two kinds of matrix inequality of the model have this form (the hypercomplex ones through real matrices of left multiplication). `Lemmas/MatrixCentering`: all kinds together. `C95_gap`: C71 without the assumption on the reported norm. `C95_quadratic`, `C95_local`: as C74 with `normsqrd`. |
| C96 | `conex/cone_program.cc` 235-533, `conex/divergence.cc`, `psd_constraint.cc`, `hermitian_psd.cc` | `Lemmas/MatrixDivergence`: `ItemSlack`, what the data of the divergence of each kind of constraint satisfy (exact trace and squared norm; the returned eigenvalues lie in the range of the spectrum, and exist for a short direction because the start vector of the Lanczos method is not zero); `divergence_gap`, `divergence_grow`. `Lemmas/SearchLoop`, `SearchPhases`: the loop for a class of programs whose steps are controlled only where a predicate `A` of the step (here: a short direction) holds. `Lemmas/MatrixSolve`: the reported norm is at most the root of the sum of squares for short directions; the whole solve. `C96_data`, `C96_norm`, `C96_progress`: one iteration. `C96_converges`, `C96_solvable`: the solve. Missing: a start far from the central path, where the damped step relies on the estimated norm (F42). |
| C97 | `conex/psd_constraint.cc` 13-100, `exponential_map_pade.cc`, `cone_program.cc` 235-533 | `Spec/MatrixPath`: central points and the distance `tr(W S) + tr(W⁻¹ S⁻¹) - 2 rank` from them; `Short`, the condition on the step size. `Lemmas/CenteringScalar`: scalar inequalities for any pair of factors of a step that lie below the exponential (the rational function for the two signs has product one). `Lemmas/TraceDecrease`: the trace inequality of one step, by a pairing of the two eigenbases with weights that are doubly stochastic up to scaling. `Lemmas/MatrixDecrease`: all constraints. `C97_short`, `C97_short_sum`: when no step is too long. `C97_decrease`, `C97_centering`. Complex and quaternion matrices are covered through their real representation (`Lemmas/HyperEmbed`); their step is a Taylor polynomial `(1 + a/4 + a²/32)⁴`, for which the weight of the cross term is `t + 5/16 t²` instead of `t + 1/3 t²` (`Lemmas/TaylorScalar`). The cross terms of all constraints must cancel, hence `SameUpdate`: all constraints use the same kind of step. |
| C98 | `conex/psd_constraint.cc` 13-100, `cone_program.cc` 235-533 | `Spec/MatrixExists`: interior points of the program and its dual, and their comparison with scaling points. `Lemmas/Potential`: functions on open sets with bounded closed sublevel sets have stationary points, and their sums do. `Lemmas/LogDet`: `tr(X S) - log det S` is such a function, with its derivative, and the inverse is strictly monotone. `Lemmas/ItemPotential`: every kind of constraint. `Lemmas/MatrixExists`: programs; Hermitian constraints are replaced by real ones of `d` times the order (`Embeds`). `C98_central`: existence and uniqueness, for any mixture. `C98_iterations`: C97 with a number of iterations known from interior points. |
| C99 | `conex/cone_program.cc` 235-533, `psd_constraint.cc` 13-100 | Joins C96 and C98. `Lemmas/SearchLoop`, `SearchPhases` and `MatrixSolve` are generalised: the initial centering may end anywhere, as long as its last steps are near a central point whenever its parameter is below the largest one. `Lemmas/MatrixStart`: interior points lie above multiples of the identity, the run of C98 from the identity, and its tail as the start of C96. `C99_converges`, `C99_solvable`: options exist for every accuracy; assumes that no step of the initial centering is too long (F42). `C99_order_one`: no such assumption for real or Hermitian matrix inequalities of order one, for which the estimate is exact. |
| C100 | `conex/equality_constraint.cc` 1-37, `cone_program.cc` 235-533, `RLDLT.h` 299-430 | `Spec/Equations`: central points of programs with equations, where forces of multipliers join the balance; `ReadyOn`. `Lemmas/Equations`: two solutions of the system differ by a direction in the kernel of the equations, so multipliers cancel from the trace inequality of C97 and from the quadratic estimate of C95. `Lemmas/EquationsRun`: the indefinite factorization is defined without empty supernodes (F21). `C100_defined`; `C100_decrease_partial`, `C100_quadratic_partial` and `C100_centering_partial` assume that no pivot is replaced and that no step is too long (F42); **violated** otherwise (`C100_equations_violated`, F89). `Lemmas/EquationsExample`: a program and a start away from its central point for which all this is proved, for all iterations. |
| C101 | `conex/equality_constraint.cc` 1-37, `cone_program.cc` 235-533 | `Spec/EquationsExists`: interior points with equations (`StrictOn`), multipliers, `DeterminedOn`. `Lemmas/Potential`, `Lemmas/ItemPotential`, `Lemmas/MatrixExists`: the potential is minimised on the affine space of the equations (`central_exists_on`), and its gradient there is a combination of the rows (`exists_multipliers`). `Lemmas/EquationsExists`: equations are replaced by zero costs (`soft`), the multipliers of the minimiser are those of the equations; reactions are orthogonal to differences of solutions, which gives uniqueness and the distance. | `C101_central` (proved); `C101_iterations_partial`: number of iterations from interior points, assuming as in C100 that no pivot is replaced (F89) and no step is too long. Example: 801 iterations for the program of C100. |
| C102 | `conex/clique_ordering.cc` 242-257, 307-330 | `Model/PostOrder`. `Lemmas/PostOrder`: the intersection has the size of the separator exactly when it is the separator; with disjoint supernodes (C12) the first match is the only one; induction over the loop. `Props/PostOrder`: `C102_post_order_partial` (exact contents, exceptions, elimination before the listing clique), `C102_post_order_violated` (F90). |
| C103 | `conex/RLDLT.h` 440-484, 575-605 | `Model/RankUpdate` (a division by zero is a value that is not finite), `Spec/RankUpdate`: what it means to factorize a matrix. `Lemmas/RankUpdate`: invariant (finished columns, untouched columns and a rank one matrix of the remaining vector add up to the target); for downdates a test vector from backward substitution shows that the new pivot is a value of the positive definite form. `Props/RankUpdate`: `C103_rank_update_partial`, and three violations (F91, F92). |
| C104 | `conex/RLDLT.h` 171-180, 299-430, 539-573 | `Model/FactorSign`: the sign next to the factorization loop. `Lemmas/FactorSign`: later passes leave earlier pivots alone; the form is the sum of the pivots times squares; every pivot is a value of the form (a test vector from backward substitution). `Props/FactorSign`: `C104_sign_partial` and two violations (F93). |
| C105 | `conex/RLDLT.h` 539-573, 608-652, 664-700 | `Model/FactorSolve`. `Lemmas/FactorSolve`: substitution, division by pivots and exchange of sums; pivots are never below the threshold, so the pseudo inverse of the division is not reached after `compute`. `Props/FactorSolve`: `C105_object`, `C105_compute_partial`, `C105_solve_violated` (F94). |
| C106 | `conex/soc_constraint.cc` 14-38, 70-122 | `Model/Peirce` (lists; a size mismatch is undefined). `Lemmas/Peirce`. `Props/Peirce`: `C106_transform_violated`, `C106_essential_violated` (F95), `C106_transform_partial` (the same statements with the right sizes), `C106_essential_domain`. |
| C107 | `conex/jordan_matrix_algebra.cc` 177-201 | `Model/HyperTests` (entries exact or NaN, squares of norms). `Lemmas/HyperTests`. `Props/HyperTests`: `C107_hermitian_partial`, `C107_equal_partial`, `C107_nan_violated`, `C107_scale_violated` (F96). |
| C108 | `conex/RLDLT.h` 88-105, 216-262, 282-289, 539-605 | `Model/FactorNorm` (members that are not set are `none`). `Lemmas/FactorNorm`: maximum of a fold, column sum of the symmetric matrix. `Props/FactorNorm`: `C108_compute_partial`, `C108_stale_violated`, `C108_uninitialised_violated` (F97). |
| C109 | `interfaces/matlab/util/ConexProgram.m` 28-52, 86-93 | `Model/MatlabLinear` (sizes and entries written, on top of `Model/SolutionArray`). `Lemmas/MatlabLinear`: invariant of the object. `Props/MatlabLinear`: `C109_class_partial`, `C109_affine_violated`, `C109_cost_violated`, `C109_long_violated`, `C109_columns_violated` (F98). |
| C110 | `kkt_solver.cc` 118-130; `supernodal_solver.cc` 389-431 | `Model/KktFrom`: round trip through the data of the first constructor (sorting separators by position is idempotent; only entries of the order matter); **violated** (F100) for dual variables and for supernodes that miss coefficients |
| C111 | `ConexProgram.m` 62-67, 95-98; `cone_program.h` 118-145 | `Model/MatlabDual` on top of `Model/MatlabLinear` and `Model/WholeDual`: one cell per constraint by induction over the numbers; **violated** (F101) after a failed first factorisation |

All properties are expressible; none is declared not applicable at this point. Parts of the
code that stay outside are listed in section 5.

## 4. Findings (code behaviour that contradicts a property)

| # | Finding |
|---|---|
| F1 | After a solve the C API handle check compares `workspaces.size()` (2·nc+2) with nc+2 and rejects the program (proved: `C06_locked_violated`). |
| F2 | The assembler's direct update path writes a wrong block when the label list starts with fill-in rows. |
| F3 | A variable used by no constraint makes the factored matrix smaller than the right-hand side; the solve throws. |
| F4 | `CONEX_DEMAND` returns 1 (the failure code of `error_codes.h`) also inside `Solve`, whose 1 means solved (proved: C28). |
| F5 | Warm start with a larger `max_iterations` writes statistics past the slice (proved: `C25_warm_start_overrun`, `C10_overrun_violated`). |
| F6 | Warm start after adding constraints re-uses an old binding; warm start as first solve reads unset memory (the second proved: `C25_first_warm_start_undefined`). |
| F7 | `CONEX_SetDefaultOptions` leaves two fields unset (proved: `C07_defaults_violated`). |
| F8 | Several C calls return a success code or id although nothing was added, or the reverse (proved: `C05_sparse_violated`, `C05_quadratic_cost_violated`, `C05_c_quadratic_cost_violated`, `C05_inequalities_violated`). |
| F9 | `NonZeroSubMat` drops rows with non-positive diagonal, changing indefinite costs (proved: `C41_indefinite_violated`). |
| F10 | The slack eigenvalue bounds are clipped by ±30000 sentinels (proved: `C30_sentinel_violated`). |
| F11 | `MaximumDegreeVertices` never returns vertex 0 and similar edge cases in the chordality code. |
| F12 | Calling `SetNumberOfVariables` late produces colliding indices. |
| F13 | `CONEX_GetIterationStats` before a solve dereferences null (proved: `C08_unsolved_violated`); after a cold start whose first factorization fails it reads an unset counter (proved: `C08_failed_violated`). |
| F14 | `WorkspaceDensePSD/Hermitian` data constructor aliases two temporaries. |
| F15 | The dual variables of second-order and quadratic cones are copied from memory that is never written (proved: `C38_soc_violated`). |
| F16 | "Solved" may be reported although the requested barrier parameter was not reached (proved: C27). |
| F17 | Quadratic cone Schur data doubles what was accumulated before (proved: `C37_accumulate_violated`). |
| F18 | Missing bound checks in update functions: a negative row or column of a Hermitian constraint or a quadratic cost is accessed, a negative variable or component of a Hermitian constraint ends in an exception, a variable beyond the columns of a linear inequality is written, the order read by a second-order cone made from matrices is uninitialised, and Hermitian constraints accept variables beyond those of the program (proved: `C44_*_violated`). |
| F19 | The SOC `PrepareStep` overwrites the scaling point, also when called only to prepare duals. |
| F20 | A zero row with a zero bound divides by zero in preprocessing (proved: `C34_zero_row_violated`). |
| F21 | `RLDLT` on an empty supernode accesses entry (0,0) of a 0×0 matrix (proved: `C20_ldlt_empty_block_violated`). |
| F22 | `RLDLT` of a 1×1 block replaces a tiny pivot but reports no regularisation (proved: `C20_ldlt_small_pivot_violated`). |
| F23 | `factorization_regularized_` is written but never read: `Factor` returns true for a regularised LDLT. |
| F25 | The chordless path reported by `IsChordal` uses the numbering of the search, consecutive entries are not adjacent, and column -1 may be read (proved: C47). |
| F26 | With the default `maximum_mu = 1e4` and `infeasibility_threshold = 1e5` the infeasibility test can never succeed: infeasible programs are never reported as such (proved: C49). |
| F27 | `num_iterations` is not updated when a factorization fails (indeterminate in a first solve), and is stale when a warm start is abandoned in the only iteration (proved: C50). |
| F28 | A failed line search is neither an error nor a fallback: the test at line 386 cannot succeed with line search, the loop goes on with the old parameter and may report success (proved: `C28_failed_line_search_solved`). |
| F29 | If all slack eigenvalues are negative the inversion of the divergence bound may return a parameter (not the failure value -1) at which the bound differs from the requested one (proved: `C31_negative_violated`). |
| F30 | When the system is larger than the linear inequality, initialising it sets both inner products to zero after computing them (proved: `C53_inner_products_violated`). |
| F31 | `AddConstraint` does not compare the number of columns with the number of variables: too many columns access the system out of range (proved: `C54_too_many_columns_violated`). |
| F32 | A named `EqualityConstraints` object is registered as an ordinary constraint without multipliers, because the template argument is deduced as a reference (proved: C52). |
| F33 | A line search with a zero slope succeeds with -inf or NaN as upper bound, which the program ignores (proved: `C33_flat_violated`, `C33_flat_on_bound_violated`). |
| F34 | The workspace of a second-order cone with a single row has size 0, and its `W0` is the first double of the next region (proved: `C09_soc_single_violated`). The C call demands order ≥ 1, so this needs the C++ constructor with one-row matrices. |
| F35 | A `SOCConstraint` built from matrices never sets `n_`, which its update functions read. |
| F36 | `CONEX_AddSparseLMIConstraint` converts `long` variable indices to `int` (proved: `C05_sparse_truncation_violated`). |
| F37 | `Solve(b, …)` with a vector of the wrong length drops it and solves with cost zero; `AddLinearCost` returns 1 on success and on failure (proved: `C55_wrong_length_violated`, `C05_linear_cost_violated`). |
| F38 | A warm start whose first factorization fails does not record iteration 0, one that performs no iteration does not clear the counter: the statistics report the previous solve (proved: `C08_stale_slot_violated`, `C08_stale_history_violated`). |
| F39 | Preparing dual variables runs `PrepareStep` without `TakeStep`; second-order and quadratic cones ignore `affine` and leave their scaling point half updated (proved: `C56_soc_violated`, `C56_quad_violated`). |
| F40 | `Sqrt` and `Exp` of the quadratic cone leave a tail of norm zero unscaled; for a singular matrix the result is exact only up to the kernel, which no other operation sees (proved: equalities up to `Same`). |
| F41 | A second-order cone built by `CONEX_NewLorentzConeConstraint` whose affine term or last variables were never set has matrices of the wrong size; building the linear system is then undefined (proved: `C37_schur_size`). |
| F42 | The step size of a matrix inequality follows from the extreme values of ⌊n/2⌋ Lanczos iterations started at one column; they never exceed the true norm (proved: `C58_norm`) but may be far below, and then the rational approximation of the exponential is negative: the scaling point leaves the cone (proved: `C57_violated`). |
| F44 | If the slack of a matrix inequality of order two or more vanishes, the Lanczos iteration normalises the zero vector and the reported norm is NaN (proved: `C58_nan_violated`). |
| F45 | A dense or Hermitian matrix inequality with fewer matrices than variables leaves the rest of its block of the linear system unwritten; the memory is allocated by `VectorXd::resize` and never cleared (proved: `C59_unwritten_violated`). |
| F43 | The step size of an octonion constraint scales only the slack, not the identity added to it: a step of size zero still multiplies the scaling point by 9/4, and the step of the reported size can end in the zero matrix (proved: `C60_octonion_zero_violated`, `C60_octonion_violated`). |
| F47 | A Hermitian inequality made by `CONEX_NewLinearMatrixInequality` has an empty affine term until `CONEX_UpdateAffineTerm` is called; if it is never called, slack and linear system end in an exception of `std::vector::at` (proved: `C62_unset_violated`). |
| F48 | The norm reported by an octonion constraint is a third of a trace and can be negative where the true norm is 2; its eigenvalue bounds divide by the trace and can be off by any factor (proved: `C61_octonion_norm_violated`, `C61_octonion_slack_violated`). |
| F49 | `CONEX_UpdateQuadraticCostMatrix` writes one entry of the matrix, and assembly reads only the lower triangle: an update with row < column succeeds and has no effect (proved: `C63_violated`). |
| F50 | `CONEX_UpdateQuadraticCostMatrix` does not check that the constraint is a quadratic cost; on a linear inequality it succeeds and changes the affine term (proved: `C44_cost_kind_violated`). |
| F46 | Dual variables of Hermitian inequalities: for octonions the exposed memory is never written and preparation leaves the scaling point as it is; for complex numbers and quaternions only the real part is exposed; after a second `SetIdentity` the exposed memory has been freed (proved: `C38_octonion_violated`, `C38_complex_violated`, `C38_freed_violated`, `C56_octonion_violated`). |
| F51 | With quadratic costs, preparing dual variables solves a system that contains the cost but does not move the point, which destroys the dual equation (proved: `C56_cost_violated`). |
| F52 | Python: `NewLorentzConeConstraint`, `NewLinearInequality` and `NewQuadraticCost` count a constraint without recording its affine term, so `GetDualVariables` fails with an index error or takes the shape of another constraint (proved: `C64_new_violated`, `C64_new_soc_violated`). |
| F53 | Python: `AddQuadraticCost` is not counted, so the constraints after it are read from the wrong place; `AddLinearInequalities` is counted once for several constraints (proved: `C64_cost_violated`, `C64_inequalities_violated`). |
| F54 | Python: a matrix inequality that the C++ program refuses is counted all the same (proved: `C64_refused_violated`). |
| F55 | Python: a single linear inequality cannot be added, since `np.squeeze` makes its affine term a scalar; `self.m` is overwritten with the number of variables of the last constraint (proved: `C64_single_violated`, `C64_variables_violated`). |
| F56 | MATLAB: `BuildMask` looks at the equations only; entries of a matrix that have a cost but occur in no equation are dropped, so an unbounded program can be reported as solved with value 0 (proved: `C65_violated`). |
| F57 | MATLAB: in `ExtractConstraintMatrices` a block without entries makes all later blocks lose theirs; not reachable through `blkdiagPrg` (proved: `C66_extract`, `C66_exact`, `C66_gap_violated`). |
| F58 | MATLAB: `conex.m` turns the cost into a row, so `Af\cf` does not fit unless there is exactly one free variable (proved: `C67_row_violated`). |
| F59 | MATLAB: a program with one block and free variables takes the dense branch of `conex.m`, whose `reshape` fails (proved: `C67_dense_violated`). |
| F60 | MATLAB: `EliminateFreeVars` does not check that the dual equations for the free variables have a solution; it goes on with a least squares solution, and the reduced dual can be feasible though the dual is not (proved: `C67_inconsistent_violated`). |
| F61 | MATLAB: with `K.f = 0` `ConexPreprocess` changes the basis of the multipliers but does not change it back, since `K.f > 0` is tested there (proved: `C67_zero_violated`; whether it shows depends on the basis `spnull` returns for a matrix without rows; `spnull` is not part of the repository). |
| F62 | `NextColumn` enters an empty supernode: `CholeskyInPlace` and `ApplyInverse` of `TriangularMatrixOperations` then read the diagonal of a block without entries, for every matrix (proved: `C68_empty_block_violated`; `GetData` produces such patterns, the example is a cycle of four cliques). |
| F63 | `SparseTriangularMatrix::operator=` (supernodal_solver.h 93-95) builds and returns a copy but does not assign to `*this`; an assignment has no effect (by inspection, not used in the library). |
| F64 | `CONEX_Solve` and `CONEX_Maximize` ignore the length `yr` of the solution array and write one entry per variable. The Python class allocates `self.m` entries, and `AddLinearInequality` and `AddDenseLinearMatrixInequality` overwrite `self.m` with their number of columns: three variables and an inequality in the first of them give an array with one entry, and the solver writes three (C70). With the default `m = -1`, `np.ones` raises an exception unless such a call came before. |
| F65 | `Solve` leaves its loop with `max_iters_reached = false` once `final_centering_steps` centering steps are done (cone_program.cc 331-335), whatever the norm of the last direction, and then reports success: with `maximum_mu` so small that the barrier parameter is at its final value from the start, "maximise y subject to y ≤ 0" is reported solved with a positive y (proved: `C71_count_violated`). With a matrix inequality the same happens although the norm test is passed, since the norm is misjudged (F42; proved: `C71_norm_violated`). |
| F66 | Since a linear inequality with fewer columns than variables loses its inner products (F30), `cx` and `kkt_error` are wrong for it: with an affine term of 10⁶ the error exceeds the default tolerance 10¹⁰ at a point of the central path with an exact solution, which ends the updates of the barrier parameter (proved: `C72_columns_violated`). |
| F67 | The infeasibility flags only say that the optimal value is large: `primal_infeasible` that every feasible point has objective value below `-√infeasibility_threshold / 2` (-158 by default), `dual_infeasible` that some feasible point has a value above `√infeasibility_threshold / 2`.  "Maximise -y subject to y ≥ 1000" is reported infeasible and "maximise y subject to y ≤ 3000" is reported to have an infeasible dual, when `maximum_mu` lets the barrier parameter reach 10⁶ (proved: `C73_primal_violated`, `C73_dual_violated`). |
| F68 | `GeodesicUpdate` (exponential_map.cc 67-85) sums a Taylor polynomial of odd degree 11, which is negative for large negative arguments: `w = 1`, `s = -6` yields a negative number, so that the update leaves the cone.  `GeodesicUpdateScaled`, the one the solver calls, has an even power (C57) and does not. (proved: `C76_cone_violated`) |
| F69 | `ComputeErrors` (ConexProgram.py 244-277): `err.x_dot_s` is overwritten by each vector inequality, so that only those constraints count that follow the last one; `min_eig_S` and `min_eig_X` are attributes of the class and grow from call to call, so that the second report starts with the values of the first; affine terms given as a column (which `AddLinearInequality` accepts) and constraints made by `NewLinearMatrixInequality` etc. raise an exception. `LMIOperator.transpose` applied twice yields the transpose, not the operator. (proved: `C77_inner_violated`, `C77_lists_violated`, `C77_column_violated`, `C77_new_violated`, `C77_transpose_violated`) |
| F70 | `GetFeasibleObjective` returns a vector with rows for the multipliers of equations; `Solve(b, …)` clears the costs, `AddLinearCost` refuses the vector (and returns `true` like in the success case), the returned value is ignored, and the program is solved for the objective zero (proved: `C78_equations_violated`) |
| F71 | The plain recurrences (`ApproximateEigenvalues(A, r0, num_iter)`) have no early stop: when the start vector lies in a small invariant subspace (for example an eigenvector), or when `num_iter` exceeds the number of rows, a norm is zero in exact arithmetic and all results are NaN. The recurrence for scaled slacks stops in the same case. (proved: `C79_defined_violated`, `C79_overrun`, `C79_hyper_overrun`) |
| F72 | `compressed = false` has no early stop: for a start vector in a small invariant subspace it divides by zero and returns NaN where `compressed = true` returns the eigenvalues of the restriction. The off-diagonal handed to Eigen has one entry too many, which is never set (Eigen does not read it). (proved: `C80_defined_violated`) |
| F73 | `Eigenvalues` (jordan_matrix_algebra.cc 212-216) returns numbers that are no eigenvalues when an eigenvalue is repeated: for the identity of order 2 the rank deficient system has a basic solution that makes the polynomial t^2 - 1 or t^2 - t, so -1 or 0 is returned (proved: `C81_exact_violated`) |
| F74 | `Orthogonalize` throws for octonions with the message that the dimension must be 1, 2, 4, or 8 (proved: `C82_octonions`); dependent columns give NaN without notice (proved: `C82_defined_iff`, `C82_wide`) |
| F75 | MATLAB: with `K.r = [2,0]` the list `indxNNeg` contains an entry of the first matrix off the diagonal (proved: `C83_nonneg_violated`). |
| F76 | MATLAB: `FindMustVanish` uses the undefined variable `K.start.q`, so it fails for every index in a Lorentz cone (proved: `C84_lorentz_violated`). |
| F77 | MATLAB: `for indx=indxD` runs over a column vector, so the body sees all indices at once: two diagonal entries of the only matrix make `FindMustVanish` fail (proved: `C84_diagonals_violated`), and with two matrices it returns entries of the wrong one (proved: `C84_unsound_violated`). |
| F78 | MATLAB: the same for rotated cones: the new sizes are wrong (proved: `C84_sizes_violated`) and entries are missing (proved: `C84_missing_violated`). |
| F79 | `conex.m` 53 assigns `options.max_iteration`, but the field of `CONEX_SolverConfiguration` is `max_iterations`: if MATLAB refuses (as documented for `libstruct`), `conex` never returns; otherwise the limit is not set (proved: `C85_options_violated`, `C85_option_name`) |
| F80 | `conex.m` 74-75 computes `c'*x` although `c` is a row since line 6: with `pars.errors` set, `conex` always fails for more than one variable (proved: `C85_errors_violated`) |
| F81 | `conex.m` 17-21: if `pars` is given without `errors` or `blkdiag`, or with `blkdiag = 0` and several blocks, `conex` fails (proved: `C85_pars_violated`, `C85_noblk_violated`) |
| F82 | `conex.m` with `K.f` present: fails for several blocks unless `K.f = 1` (so for `K.f = 0`), and for one block whenever there are free variables (proved: `C85_free_violated`, `C85_free_block_violated`) |
| F83 | `conex.m` 13 and `BuildMask.m` 3 test `K.q > 0` as a whole: `K.q = [3, 0]` passes, the Lorentz variables are taken for matrices, and an `x` outside of the cone is returned as a solution (proved: `C85_lorentz_violated`) |
| F84 | `conex.m` 46-47 with `pars.blkdiag` and one block mixes the reduced order with the original data: fails if the block shrinks; and with several blocks, `b = 0` and `c = 0` the output of `ExtractConstraintMatrices` is never assigned (proved: `C85_single_violated`, `C85_empty_violated`). `info.pinf` and `info.dinf` are both `~solved` (`C85_runs`) |
| F85 | `ConexProgram.py` 234 tests only the largest variable: `-1`, which the library refuses, is kept, and `ComputeErrors` takes it for the last variable; one constraint made by a method `New…` makes every report fail (proved: `C77_negative_violated`, `C77_mixed_violated`) |
| F86 | If `inv_sqrt_mu_max` is smaller than `sqrt(1 / (1e-15 + maximum_mu))`, the lower limit is applied last (`cone_program.cc` 216-224) and counts as having reached the target: a solve reports success after at most two steps, also for an unbounded program, with a negative dual variable and an arbitrarily bad point (proved: `C86_violated`, `C75_unbounded_violated`) |
| F87 | The preparation of dual variables (`cone_program.cc` 499-516) writes the dual variables over the scaling points (`linear_constraint.cc` 170-175), which need not be positive. A warm start after it takes them for scaling points: for `min y` subject to `y <= 1` a second solve reports success with a last direction of norm zero and returns `y > 1` (proved: `C87_violated`). Warm starts are usable only if the previous call did not prepare dual variables |
| F88 | `PerformLineSearch` exists for linear inequalities, equations and quadratic costs only; for other constraints the template (`constraint.h` 24-28) fails, `ComputeMuFromLineSearch` returns -1, and `Solve` keeps the old barrier parameter (`cone_program.cc` 377-386), which starts at zero and is raised to the lower limit. So with `enable_line_search` and any second-order cone, matrix inequality or quadratic cone the barrier parameter never leaves `1/sqrt(1e-15 + maximum_mu)` (proved: `C90_stuck`), and `Solve` can still report success (proved: `C90_stuck_violated`, a point with value -50 where -10050 is feasible). As quadratic costs require the line search (237), quadratic costs cannot be combined with these constraints |
| F89 | `RLDLT` replaces every pivot that is at most 1e-9 in absolute value, whatever the scale of the data, and nothing reads the flag `factorization_regularized_` that records it (`kkt_solver.cc` 192). An equation with coefficients of size 1e-5 is then not enforced: for `y₀ = 1/2` multiplied by 1e-5, centering has a fixed point with direction zero at `y₀ = 1` (proved: `C100_equations_violated`). The default is no iterative refinement. At the level of `Solve` (proved: `C100_solve_violated`): for the program with that equation and default options, with the line search and without rescaling, success is reported with `y₀ = 1` for the largest barrier parameter, though the program has interior points. |
| F90 | `FindSupernode` accepts a supernode only if it contains the whole separator, so a separator spread over two supernodes is dropped from the post order without notice (proved: `C102_post_order_violated`, a cycle of four cliques). Nothing but a test uses this output. |
| F91 | `RLDLT::rankUpdate` loses updates at zero pivots: from an object without a decomposition, the update by `(0, 1)` computes 0/0, which ends the loop, and gives the zero matrix (proved: `C103_zero_pivot_violated`). A downdate that makes a leading minor zero writes values that are not finite even if the result has a factorization: add `(1, 0)` and `(0, 1)`, remove `(1, 0)` (proved: `C103_downdate_violated`). The code is inherited from Eigen and has no callers here. |
| F92 | `RLDLT::rankUpdate` does not update the sign of an initialized object: `isPositive()` stays true for the matrix `-3` (proved: `C103_sign_violated`). No callers here. |
| F93 | After replaced pivots the sign of an `RLDLT` object is wrong: `isPositive()` is true for the indefinite matrix with `1e-10` on the diagonal and `2e-10` beside it (proved: `C104_positive_violated`), and `isNegative()` is false for `diag(-1, 0)` (proved: `C104_negative_violated`). The class documentation promises both for semidefinite matrices. No callers here. |
| F94 | After a replaced pivot `RLDLT::solve` returns a vector that does not solve the system, although the matrix is invertible and well conditioned: for `[[0, 1], [1, 0]]` and `b = (0, 1)` the second entry is `-1e-9` instead of 0 (proved: `C105_solve_violated`). `info()` is always `Success`; only `regularization_used()` tells. |
| F95 | `TransformToPeirceComponents` takes the scalar product of `q_` (`n_` entries) with the last `n_ - 1` entries of `x`, and its result allocates `x.rows() + 1` entries per component; no vector has a fitting size, so every call is undefined (an Eigen assertion in a debug build). `EssentialVectorOfDiagonalPeirceComponents` needs a `z` of `n_ - 1` entries, but its comment announces `n_ + 1` (proved: `C106_transform_violated`, `C106_essential_violated`, `C106_essential_domain`). Dead code. |
| F96 | `IsHermitian` and `IsEqual` reject by `norm > eps`, which is false for NaN: a matrix with NaN in every component is Hermitian and equal to every matrix (proved: `C107_nan_violated`), so the tests of the repository that use them as oracles pass on results that are NaN. The tolerance is absolute: `[[0, 1e-13], [0, 0]]` is accepted as Hermitian (proved: `C107_scale_violated`). |
| F97 | `RLDLT::rankUpdate` does not update `m_l1_norm`, so `rcond` after an update uses the norm of the old matrix (proved: `C108_stale_violated`, 1 instead of 10). The constructors leave `m_l1_norm`, `m_info` and `m_regularization_used` uninitialised and `rankUpdate` on a new object sets `m_isInitialized` without setting them, so `rcond`, `info` and `regularization_used` pass their assertion and read indeterminate values (proved: `C108_uninitialised_violated`). |
| F98 | The MATLAB class checks sizes for matrix inequalities only. `AddLinearInequality` passes the number of rows of `A` as the length of `c`, so a short `c` is read beyond its end; the number of columns is not compared with the number of variables. `Maximize` allocates `y` with the length of `b` while the library writes one entry per variable, so a short `b` is a heap overflow inside of MATLAB; a long `b` is dropped and the program is solved without a cost (proved: `C109_affine_violated`, `C109_columns_violated`, `C109_cost_violated`, `C109_long_violated`). |
| F99 | `UpdateLinearOperator` and `UpdateAffineTerm` of Hermitian matrix inequalities (`hermitian_psd.cc` 257-262, 294-299) test `std::is_same<HermitianPsdConstraint<H>, Octonions>`, which is false for every `H`; the refusal of the components 3 to 7 of octonion matrices is dead code, and it would return `false`, which is the status of success (proved: `C44_octonion_violated`). |
| F100 | The constructor of `SupernodalKKTSolver` that takes supernodes and separators (`kkt_solver.cc` 118-130) has no argument for dual variables, so a system with equations is factored by Cholesky, which fails; it does not compare the supernodes with the cliques, so separators that miss an index are accepted, the coefficients have no place in the matrix, and the solution is wrong without complaint (proved: `C110_duals_violated`, `C110_equation_violated`, `C110_unchecked_violated`, `C110_dropped_violated`). No caller in the repository. |
| F101 | `Maximize` of the MATLAB class reads all dual variables without looking at the status. After a cold start whose first factorisation fails (for example, as the inequalities do not bound all variables) no iteration was recorded, and `sqrt_inv_mu[num_iter - 1]` is read at an index that was never set (proved: `C111_factor_violated`). |
| F24 | Raising the number of refinement iterations after `Factor` makes `SolveInPlace` use an empty saved matrix. |

Each finding that has been proved on the model is referenced from `MANIFEST.json`.

## 5. Trusted base

* The Lean 4.33.0 kernel and the statements (not proofs) of the theorems in `lean/Verif/Props`.
* Axioms: at most `propext`, `Classical.choice`, `Quot.sound`. No axiom is declared, no `sorry`,
  no `native_decide`/`bv_decide`.
* The correspondence between `lean/Verif/Model` and `/repo`, established by reading; the line
  citations are there to make it checkable.
* Floating point rounding is not modelled.
* Not modelled: Eigen itself, BLAS/LAPACK, numpy, MATLAB and the SWIG glue, test code,
  timing/debug output. What the models of the Python class and of the MATLAB functions assume of
  numpy and MATLAB is said at the definitions.

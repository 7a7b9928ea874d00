{"id": "C01", "title": "Quadratic row value is the quadratic form it was built from", "statement": "For every quadratic row held in triplet form, evaluating the row at a point returns constant + linear part . x + x'Qx, where the stored entries list one triangle of the symmetric matrix Q (so an off-diagonal entry counts twice: the sum over diagonal entries of value * x_i^2 plus twice the sum over off-diagonal entries of value * x_row * x_col, repeated entries adding up); a row built from a quadratic cut has the cut's constant, linear part and matrix; the value does not depend on the order in which entries are stored or on how rows/columns are grouped internally.", "quantifier": "all sparse triplet matrices, linear parts, constants and points of any dimension", "why_tests_cant": "the internal gradient-map representation is an accumulation over arbitrary index patterns (repeated rows, diagonal and off-diagonal entries); tests visit finitely many patterns", "anchors": ["src/Algorithms/QuadCuts/BonQuadRow.cpp: QuadRow::initialize, eval_f, internal_eval_grad"]}
{"id": "C02", "title": "Quadratic row gradient is the exact derivative", "statement": "For every quadratic row and every point x and displacement d, row(x+d) - row(x) equals gradient(x).d plus a term that is purely quadratic in d and independent of x.", "quantifier": "all rows, points and displacements", "why_tests_cant": "exactness of a derivative is an identity over a continuum of points and directions; finite differences only sample it", "anchors": ["src/Algorithms/QuadCuts/BonQuadRow.cpp: eval_grad, internal_eval_grad, gradiant_struct"]}
{"id": "C03", "title": "Quadratic row Hessian contribution is exact", "statement": "Adding a quadratic row's second-derivative contribution with multiplier lambda changes the Hessian value array only at the slots registered for the row's entries, and changes the quadratic form represented by the array by exactly lambda times the row's second-order part.", "quantifier": "all rows, multipliers and existing Hessian structures", "why_tests_cant": "requires that no two entries of the structure alias a slot, an invariant over all histories of structure updates", "anchors": ["src/Algorithms/QuadCuts/BonQuadRow.cpp: add_to_hessian, eval_hessian", "src/Algorithms/QuadCuts/BonTMINLP2Quad.cpp: eval_h"]}
{"id": "C04", "title": "Appending and removing quadratic cuts keeps the Hessian structure consistent", "statement": "After any history of adding and removing quadratic cuts, each (row,col) pair needed by the original problem or by a live cut appears exactly once in the reported Hessian structure, no other pair appears, and the reported positions are exactly 0..nnz-1 without gaps.", "quantifier": "all histories of add/remove operations on any original structure", "why_tests_cant": "reference counts and renumbering on removal only go wrong for particular interleavings", "anchors": ["src/Algorithms/QuadCuts/BonTMINLP2Quad.cpp: addCuts, removeCuts, eval_h", "src/Algorithms/QuadCuts/BonQuadRow.cpp: add_to_hessian, remove_from_hessian"]}
{"id": "C05", "title": "Removing quadratic/linear cuts leaves the other rows intact", "statement": "Removing a set of previously appended rows by index keeps every other appended row in its original relative order with its own bounds, and removing everything that was added restores the row count, the row bounds and the Jacobian size of the original problem.", "quantifier": "all lists of appended rows and all duplicate-free removal index sets, in any order", "why_tests_cant": "the compaction loop is index arithmetic with a sentinel; correctness must hold for all subsets and orders", "anchors": ["src/Algorithms/QuadCuts/BonTMINLP2Quad.cpp: addCuts, addRowCuts, removeCuts, get_nlp_info"]}
{"id": "C06", "title": "Rewriting a triplet matrix to one triangle preserves the quadratic form", "statement": "Moving all entries of a triplet matrix to one triangle, and merging duplicated entries, never changes x'Qx for any x, and afterwards no entry lies on the other side of the diagonal / no position is stored twice.", "quantifier": "all triplet matrices and points", "why_tests_cant": "in-place compaction through permutation arrays depends on the sorted order of arbitrary duplicates", "anchors": ["src/Algorithms/QuadCuts/BonTMatrix.cpp: make_upper_triangular, removeDuplicates, make_lower_to_be_upper, make_full_upper_triangular"]}
{"id": "C07", "title": "Epigraph reformulation is equivalent to the original problem", "statement": "The problem handed to the solver when the objective is moved to the constraints is equivalent: (x,t) is feasible for it iff x is feasible for the original and f(x) <= t, so both have the same optimal value, and x is optimal iff (x,f(x)) is optimal.", "quantifier": "all user problems (any n, m, functions and bounds) and all points", "why_tests_cant": "equivalence is a statement on all feasible points of arbitrary user functions", "anchors": ["src/Algorithms/QuadCuts/BonTMINLPLinObj.cpp: get_bounds_info, eval_f, eval_g, eval_gi"]}
{"id": "C08", "title": "Epigraph reformulation derivatives agree with its functions", "statement": "Jacobian structure and values, single-row gradients and Lagrangian Hessian reported by the epigraph reformulation are those of its own constraints: row 0 is (grad f, -1), row i+1 is the original row i, and the Hessian factor of f is the multiplier of row 0.", "quantifier": "all user problems, points and multipliers", "why_tests_cant": "index shifting by one row and one column has to be right for every sparsity pattern and both index styles", "anchors": ["src/Algorithms/QuadCuts/BonTMINLPLinObj.cpp: eval_jac_g, eval_h, eval_grad_gi, get_scaling_parameters"]}
{"id": "C09", "title": "Outer-approximation cuts never cut off a feasible point of a convex problem", "statement": "For a convex constraint, every linearisation produced by the interface, including the removal of tiny coefficients using variable bounds, is satisfied by every point that satisfies the constraint and the variable bounds.", "quantifier": "all convex rows, linearisation points, bounds, coefficients and tolerance settings", "why_tests_cant": "validity is a universally quantified statement on the feasible set; the tiny-coefficient path is hit by few test instances", "anchors": ["src/Interfaces/BonOsiTMINLPInterface.cpp: cleanNnz, getOuterApproximation, getConstraintOuterApproximation", "src/Interfaces/BonTMINLP2OsiLP.hpp: cleanNnz, get_oas"]}
{"id": "C10", "title": "Outer-approximation cuts support the constraint at the linearisation point", "statement": "If no coefficient is dropped, a generated cut evaluated at the linearisation point x has exactly the activity margin g(x) - rhs, so the cut is violated at x exactly when the constraint is.", "quantifier": "all rows and points", "why_tests_cant": "needed for finite convergence of OA: must hold for all points", "anchors": ["src/Interfaces/BonOsiTMINLPInterface.cpp: getOuterApproximation", "src/Interfaces/BonTMINLP2OsiLP.cpp"]}
{"id": "C11", "title": "Outer approximation of the continuous relaxation keeps all feasible points", "statement": "The linear relaxation extracted by the OuterApprox helper class contains every point feasible for the (convex) problem.", "quantifier": "all convex problems, points and tolerances", "why_tests_cant": "same as C09, separate implementation with its own sign handling", "anchors": ["src/Algorithms/QuadCuts/BonOuterApprox.hpp: cleanNnz", "src/Algorithms/QuadCuts/BonOuterApprox.cpp: extractLinearRelaxation"]}
{"id": "C12", "title": "Benders cut underestimates the objective", "statement": "The Benders-type cut built from an NLP solution with multipliers is satisfied by (y, f(y)) for every feasible y of a convex problem.", "quantifier": "all convex problems, KKT points and feasible points", "why_tests_cant": "validity is universal over feasible points", "anchors": ["src/Interfaces/BonOsiTMINLPInterface.cpp: getBendersCut"]}
{"id": "C13", "title": "Disjunctive cut strengthening is valid", "statement": "When a linearisation is strengthened on both sides of an integer disjunction x_i <= k or x_i >= k+1 and the two bounds are merged in one cut, every integer-feasible point that satisfies one of the two strengthened cuts satisfies the merged cut.", "quantifier": "all coefficient vectors, split points, bounds and integer points", "why_tests_cant": "holds for binaries but must hold for all general-integer values too", "anchors": ["src/Interfaces/BonCutStrengthener.cpp: HandleOneCut"]}
{"id": "C14", "title": "Feasibility-pump objective and its derivatives agree", "statement": "The projection objective (1- or 2-norm) equals lambda*distance + (1-lambda)*sigma*f, its gradient is the derivative of that function, and its Hessian is the derivative of the gradient.", "quantifier": "all index sets, targets, weights and points", "why_tests_cant": "derivative exactness over all points and parameter combinations", "anchors": ["src/Interfaces/BonTNLP2FPNLP.cpp: dist_to_point, eval_f, eval_grad_f, eval_h"]}
{"id": "C15", "title": "Objective-cutoff and local-branching rows added for the feasibility pump describe the intended sets", "statement": "With the cutoff constraint on, a point satisfies the added row iff f(x) is at most the cutoff requested through set_cutoff; with the local-branching constraint on, iff its distance to the target is at most rhs; the Jacobian of these rows is placed inside the arrays announced by get_nlp_info.", "quantifier": "all combinations of the two optional constraints, all sizes", "why_tests_cant": "four combinations times arbitrary sizes; out-of-range writes appear only for some", "anchors": ["src/Interfaces/BonTNLP2FPNLP.cpp: set_cutoff, get_nlp_info, get_bounds_info, eval_g, eval_jac_g"]}
{"id": "C16", "title": "Random starting points respect the variable bounds", "statement": "Every coordinate of a random starting point lies within the (possibly infinite) bounds of its variable for every random draw in [0,1], every radius and each of the supported perturbation modes.", "quantifier": "all bounds, radii, draws, user start values and perturbation radii", "why_tests_cant": "clamping with one-sided infinite bounds has many corner cases; draws are a continuum", "anchors": ["src/Interfaces/BonOsiTMINLPInterface.cpp: randomStartingPoint"]}
{"id": "C17", "title": "Retries keep the best solution found", "statement": "After the multi-start resolve, the reported status and objective are those of the best successfully solved attempt; if any attempt succeeded the result is reported as solved and no attempt has a better objective than the one kept.", "quantifier": "all sequences of NLP outcomes", "why_tests_cant": "depends on the history of solver outcomes", "anchors": ["src/Interfaces/BonOsiTMINLPInterface.cpp: resolveForCost, resolveForRobustness"]}
{"id": "C18", "title": "A problem with all variables fixed is decided correctly without a solver", "statement": "When every variable is fixed, the reported status is optimal iff the fixed point satisfies the row bounds up to the documented tolerance, else infeasible; the reported point is within the variable bounds.", "quantifier": "all problems with fixed variables, all bounds", "why_tests_cant": "universally quantified over bounds including crossed and slightly open ones", "anchors": ["src/Interfaces/BonTNLPSolver.cpp: zeroDimension"]}
{"id": "C19", "title": "Solver status is reported truthfully", "statement": "The interface reports infeasible only if the NLP solver proved it (or the user asked failures to be treated so), optimal only if the solver converged, and a failed solve is reported as abandoned for every later call until the next solve.", "quantifier": "all histories of solves and option settings", "why_tests_cant": "the sticky flags of the interface make the answer depend on history", "anchors": ["src/Interfaces/BonOsiTMINLPInterface.cpp: solveAndCheckErrors, resolve, initialSolve, isAbandoned, isProvenOptimal, isProvenPrimalInfeasible", "src/Interfaces/Ipopt/BonIpoptSolver.cpp: solverReturnStatus, OptimizeTNLP"]}
{"id": "C20", "title": "Bounds changed on the interface are what the solver sees, and the starting point falls back in a fixed order", "statement": "After any history of bound changes and start point settings, the solver receives exactly the last bounds set for every variable, and the start point last set, else the user's start point.", "quantifier": "all histories of setter calls", "why_tests_cant": "state-machine property over histories", "anchors": ["src/Interfaces/BonTMINLP2TNLP.cpp: SetVariablesBounds, SetVariableLowerBound, setxInit, setDualsInit, resetStartingPoint, get_bounds_info, get_starting_point"]}
{"id": "C21", "title": "Depth-first dive tree neither loses nor duplicates open nodes", "statement": "In the diving tree, for every history of pushes and pops each open node whose bound is below the cutoff is eventually available exactly once: nodes inside = nodes pushed - nodes handed out - nodes discarded because their bound reached the cutoff; size() and empty() agree with the content.", "quantifier": "all histories of push / bestNode / pop / cleanTree with any cutoffs", "why_tests_cant": "losing a node silently invalidates optimality; only particular histories trigger it", "anchors": ["src/CbcBonmin/BonDiver.cpp: CbcDiver"]}
{"id": "C22", "title": "Probed diving tree neither loses nor duplicates open nodes", "statement": "Same conservation law for the probed diving tree, which compares two children before continuing.", "quantifier": "all histories", "why_tests_cant": "same as C21", "anchors": ["src/CbcBonmin/BonDiver.cpp: CbcProbedDiver"]}
{"id": "C23", "title": "Dfs diver neither loses nor duplicates open nodes in any search phase", "statement": "Same conservation law for the dfs diver, in all of its phases (enlarge, find solutions, close bound, limit tree size).", "quantifier": "all histories and phases", "why_tests_cant": "same as C21; phase switches happen during the search", "anchors": ["src/CbcBonmin/BonDiver.cpp: CbcDfsDiver"]}
{"id": "C24", "title": "The best possible bound of a dive tree is a true lower bound", "statement": "The best possible objective reported by any of the three trees is at most the bound of every open node contained in it, and is attained when the tree is non-empty.", "quantifier": "all tree contents", "why_tests_cant": "must hold for all contents", "anchors": ["src/CbcBonmin/BonDiver.cpp: getBestPossibleObjective"]}
{"id": "C25", "title": "Failure counting rules of the NLP strategy", "statement": "Along every branch of the tree, a node that failed to solve is branched on iff at most maxFailure consecutive ancestors-including-itself failed, and an infeasible node is branched on iff fewer than maxInfeasible consecutive nodes were infeasible; otherwise the node is fathomed or an error raised, as configured.", "quantifier": "all sequences of node outcomes along a path and all option values", "why_tests_cant": "counter protocol over histories", "anchors": ["src/CbcBonmin/BonCbcNlpStrategy.cpp: status", "src/CbcBonmin/BonCbcNode.cpp: BonCbcPartialNodeInfo"]}
{"id": "C26", "title": "Final status of branch and bound is consistent with what was found", "statement": "A run reports FeasibleOptimal only with a solution from that run and a completed search, ProvenInfeasible only if the search completed without solution, and an interrupted run reports Feasible/NoSolutionKnown according to whether a solution is available.", "quantifier": "all combinations of model status, solutions and time", "why_tests_cant": "combinatorial decision logic with state kept across runs", "anchors": ["src/CbcBonmin/BonCbc.cpp: Bab::branchAndBound, bestBound"]}
{"id": "C27", "title": "The candidate list for branching contains exactly the violated objects of best priority first", "statement": "The candidate list is duplicate free, contains only violated objects, contains every violated object, and lists first those of the best priority in decreasing usefulness.", "quantifier": "all object sets, priorities and usefulness values", "why_tests_cant": "selection-with-overflow arrays; must hold for all inputs", "anchors": ["src/Algorithms/Branching/BonChooseVariable.cpp: setupList"]}
{"id": "C28", "title": "Random branching picks a violated object of best priority", "statement": "The random chooser selects an object that is violated and of best priority among violated objects.", "quantifier": "all objects, priorities and random draws", "why_tests_cant": "depends on the order of priorities", "anchors": ["src/Algorithms/Branching/BonRandomChoice.cpp: setupList, chooseVariable"]}
{"id": "C29", "title": "Strong branching restores the problem and reports infeasibility faithfully", "statement": "After probing candidates, column bounds of the solver equal those before the call, and the return code says 'infeasible' whenever some candidate had both sides infeasible.", "quantifier": "all candidate sequences and outcomes", "why_tests_cant": "loop with early exits and overwritten codes", "anchors": ["src/Algorithms/Branching/BonChooseVariable.cpp: doStrongBranching"]}
{"id": "C30", "title": "Pseudo-cost bookkeeping is a true average", "statement": "After any history of branch outcomes, the average cost used for a side of a variable is the mean of the recorded per-unit changes, counts never decrease and changes below tolerance are ignored.", "quantifier": "all histories of outcomes", "why_tests_cant": "history property", "anchors": ["src/Algorithms/Branching/BonChooseVariable.cpp: updateInformation, computeMultipliers", "src/Algorithms/Branching/BonPseudoCosts.cpp"]}
{"id": "C31", "title": "Fixing integers and restoring is an exact round trip", "statement": "For every LP state, fixing the integer variables at rounded values, adding cuts and calling restore gives back the same row count, column bounds, cutoff and warm start.", "quantifier": "all solver states", "why_tests_cant": "state restoration over arbitrary intermediate operations", "anchors": ["src/Algorithms/OaGenerators/BonOaDecBase.cpp: solverManip", "src/Algorithms/BonSolverHelp.cpp: fixIntegers"]}
{"id": "C32", "title": "Outer-approximation decomposition is sound and finitely convergent", "statement": "For a convex MINLP with bounded integer variables, the OA loop never cuts a better solution than the incumbent by more than the tolerance, never repeats an integer assignment and stops after finitely many iterations with the optimal value (within tolerance) or a proof of infeasibility.", "quantifier": "all convex problems, NLP/MILP oracle answers consistent with their contract", "why_tests_cant": "convergence is a statement over all executions", "anchors": ["src/Algorithms/OaGenerators/BonOACutGenerator2.cpp: performOa", "src/Algorithms/OaGenerators/BonOaDecBase.cpp: post_nlp_solve"]}
{"id": "C33", "title": "Dive heuristics only return feasible improving points", "statement": "If a dive heuristic returns success, the returned point satisfies all variable bounds, integrality, and row bounds up to the primal tolerance, and its objective is strictly better than the incumbent.", "quantifier": "all NLP oracle answers and selection rules", "why_tests_cant": "depends on solver answers", "anchors": ["src/CbcBonmin/Heuristics/BonHeuristicDive.cpp: solution, isNlpFeasible, adjustPrimalTolerance"]}
{"id": "C34", "title": "Fractional dive rounds a most promising fractional variable inside its bounds", "statement": "The variable selected for rounding is integer constrained, fractional beyond tolerance, its rounded value is within bounds, and no other variable has a smaller distance to an allowed rounding.", "quantifier": "all points and bounds", "why_tests_cant": "arg-min over arbitrary data", "anchors": ["src/CbcBonmin/Heuristics/BonHeuristicDiveFractional.cpp: selectVariableToBranch", "src/CbcBonmin/Heuristics/BonHeuristicDiveVectorLength.cpp"]}
{"id": "C35", "title": "Feasibility-pump rounding gives integer points within bounds and respects SOS1 rows", "statement": "The rounding step returns a point whose integer components are integral and within bounds, and which has exactly one variable at 1 in each recognised sum-to-one row.", "quantifier": "all points and rows", "why_tests_cant": "universally quantified over points; recognition of rows depends on coefficients", "anchors": ["src/CbcBonmin/Heuristics/BonHeuristicFPump.cpp: RoundingFPump"]}
{"id": "C36", "title": "No-good cut of MILP rounding removes exactly the visited point", "statement": "The cut added after each round excludes the visited binary point and no other binary point.", "quantifier": "all binary points", "why_tests_cant": "universal over 2^n points", "anchors": ["src/CbcBonmin/Heuristics/BonMilpRounding.cpp: solution"]}
{"id": "C37", "title": "Local-search heuristics frequency control stays in range", "statement": "For every history of successes and failures the RINS frequency stays in its configured range and the neighbourhood fixing leaves values within bounds.", "quantifier": "all histories", "why_tests_cant": "history property", "anchors": ["src/CbcBonmin/Heuristics/BonHeuristicRINS.cpp: solution"]}
{"id": "C38", "title": "Warm start differences reproduce the warm start", "statement": "Applying the difference generated between two warm starts to the older one gives the newer one.", "quantifier": "all pairs of warm starts", "why_tests_cant": "round trip over all contents incl. different sizes", "anchors": ["src/Interfaces/Filter/BonFilterWarmStart.cpp: generateDiff, applyDiff", "src/Interfaces/Ipopt/BonIpoptWarmStart.cpp"]}
{"id": "C39", "title": "Conversion to row-ordered packed matrices preserves the matrix", "statement": "Converting a triplet Jacobian/Hessian structure to the packed row form used by the SQP solvers lists every entry exactly once in its own row segment, in increasing column order, and the value permutation sends each value to the slot of its entry.", "quantifier": "all triplet structures, index styles and offsets", "why_tests_cant": "CSR start arithmetic for empty rows, first/last rows", "anchors": ["src/Interfaces/Filter/BonFilterSolver.cpp: TMat2RowPMat, gradient_, hessian_"]}
{"id": "C40", "title": "Branching QP is the second-order model of the NLP", "statement": "The QP used for approximate strong branching has value f(x)+grad.d+d'Hd/2 - f(x), exact gradient, bounds equal to shifted bounds, and reports solutions in the original space (point, objective and row activities).", "quantifier": "all problems and displacements", "why_tests_cant": "identity over all displacements", "anchors": ["src/Interfaces/BonBranchingTQP.cpp"]}
{"id": "C41", "title": "Reading a bounds file tightens exactly the listed bounds", "statement": "Reading and applying a bounds file leaves all variables not listed unchanged, and only tightens bounds.", "quantifier": "all files and bounds", "why_tests_cant": "parser over all inputs", "anchors": ["src/Interfaces/BonBoundsReader.cpp: readAndApply, read"]}
{"id": "C42", "title": "SOS reference weights repair gives strictly increasing weights without reordering", "statement": "After the repair each SOS set has strictly increasing reference values, whatever the input.", "quantifier": "all reference lists", "why_tests_cant": "universal over inputs incl. ties and negatives", "anchors": ["src/Interfaces/Ampl/sos_kludge.cpp: sos_kludge"]}
{"id": "C43", "title": "Integrality test accepts exactly the points within tolerance", "statement": "The feasibility test used by decomposition returns true iff every integer variable is within the tolerance of an integer, independent of whether integrality is stored through objects or column types.", "quantifier": "all points and tolerances", "why_tests_cant": "two code paths must agree on all points", "anchors": ["src/Algorithms/BonSolverHelp.cpp: integerFeasible, isDifferentOnIntegers"]}
{"id": "C44", "title": "Copies of problem data do not alias or change the source", "statement": "Copying SOS and branching information yields an equal, independent copy and leaves the source unchanged.", "quantifier": "all contents", "why_tests_cant": "must hold for all array contents", "anchors": ["src/Interfaces/BonTMINLP.cpp: SosInfo copy constructor, BranchingInfo copy constructor"]}
{"id": "C45", "title": "C interface rejects malformed problems and uses the data it was given", "statement": "CreateBonminProblem returns NULL for every malformed input and otherwise a problem that carries all the data passed in, including SOS and branching information.", "quantifier": "all inputs", "why_tests_cant": "universal over inputs", "anchors": ["src/Interfaces/BonStdCInterface.cpp: CreateBonminProblem, BonminSolve"]}
{"id": "C46", "title": "The linear relaxation extracted from the interface contains every feasible point", "statement": "Every point feasible for a convex problem satisfies all rows of the LP relaxation that the interface loads into the MILP solver, each row with its own bounds.", "quantifier": "all convex problems, linearisation points, multipliers and feasible points", "why_tests_cant": "quantifies over all feasible points and all problem data", "anchors": ["src/Interfaces/BonOsiTMINLPInterface.cpp: extractLinearRelaxation, cleanNnz"]}
{"id": "C47", "title": "The outer-approximation cuts returned do not depend on the log level", "statement": "Asking for cuts violated by at least theta at a second point returns the cuts with that violation, whatever the verbosity.", "quantifier": "all problems, points and thresholds", "why_tests_cant": "two settings must agree on all inputs", "anchors": ["src/Interfaces/BonOsiTMINLPInterface.cpp: getOuterApproximation"]}
{"id": "C48", "title": "Rounding a solution and checking it keeps feasible solutions", "statement": "round_and_check rounds the integer variables of the current solution and declares the problem infeasible only if the rounded point violates a constraint.", "quantifier": "all problems and solutions", "why_tests_cant": "the sign of the test only matters for some solutions; the property is universal", "anchors": ["src/Interfaces/BonOsiTMINLPInterface.hpp: round_and_check", "src/Interfaces/BonTMINLP2TNLP.cpp: check_solution"]}
{"id": "C49", "title": "A solution forced to be branchable is fractional and within its bounds", "statement": "After forceBranchable, every integer variable that is not fixed has a value strictly between its bounds that is not an integer, and fixed and continuous variables keep their value.", "quantifier": "all bounds and solutions", "why_tests_cant": "depends on the bounds at deep nodes where most variables are fixed", "anchors": ["src/Interfaces/BonTMINLP2TNLP.cpp: force_fractionnal_sol", "src/Interfaces/BonOsiTMINLPInterface.hpp: forceBranchable"]}
{"id": "C50", "title": "The branching variable chosen is the best-scored candidate", "statement": "chooseVariable returns an unsatisfied object whose score is maximal among the candidates examined, with the way of that object; code 2 or 3 means a bound can be changed and the candidate is a strong or a trusted one, code 4 means there is no other candidate; bounds change only by forced branches.", "quantifier": "all lists, pseudo-costs, answers of strong branching and options", "why_tests_cant": "depends on the combination of trusted and probed candidates and on every pattern of infeasible sides", "anchors": ["src/Algorithms/Branching/BonChooseVariable.cpp: chooseVariable"]}
{"id": "C51", "title": "Decomposition cuts: saved cuts are returned once, the checker ends with nothing cheaper left", "statement": "Called again at the same node the decomposition returns exactly the first saved cut violated by the LP solution and forgets it; cuts saved at another node are never returned; the bound of the decomposition is passed on unless it is trivial. When the feasibility checker ends, its LP has no integral solution below the cutoff, or the node is fathomed because the integers repeat; each cut is installed once and Benders cuts replace outer approximation cuts only after the configured number of cuts.", "quantifier": "all sequences of calls, nodes and saved cuts; all answers of the NLP and LP solvers", "why_tests_cant": "depends on the order of calls at a node and on every pattern of solver answers", "anchors": ["src/Algorithms/OaGenerators/BonOaDecBase.cpp: generateCuts", "src/Algorithms/OaGenerators/BonOaFeasChecker.cpp: performOa"]}
{"id": "C52", "title": "General integer variables are recognised", "statement": "TMINLP::hasGeneralInteger returns true exactly when some variable can only take integer values and is not a 0-1 variable; the feasibility pump is switched on automatically only when it returns false.", "quantifier": "all variable types and bounds", "why_tests_cant": "universal over bounds and types", "anchors": ["src/Interfaces/BonTMINLP.cpp: hasGeneralInteger"]}
{"id": "C53", "title": "The C interface delivers the solution", "statement": "After BonminSolve the arrays passed in hold the solution found and its objective value, and the return value tells success from failure.", "quantifier": "all problems, all answers of branch-and-bound", "why_tests_cant": "must hold for every run", "anchors": ["src/Interfaces/BonStdCInterface.cpp: BonminSolve", "src/Interfaces/BonStdInterfaceTMINLP.hpp: finalize_solution"]}
{"id": "C54", "title": "Callbacks of the C interface are evaluated at the point asked for", "statement": "In every sequence of evaluations that keeps to the agreement about new_x, each user callback receives exactly the point the solver asked for; the starting point is delivered exactly when it was given.", "quantifier": "all sequences of evaluations", "why_tests_cant": "quantifies over histories", "anchors": ["src/Interfaces/BonStdInterfaceTMINLP.cpp: apply_new_x, eval_f, eval_grad_f, eval_g, eval_jac_g, eval_h, get_starting_point"]}
{"id": "C55", "title": "The MILP of the MILP-rounding heuristic has the linear rows of the problem", "statement": "The matrix handed to the MILP solver contains, column by column, exactly the Jacobian entries of the linear rows with their values, with the rows numbered consecutively.", "quantifier": "all Jacobian structures and values", "why_tests_cant": "depends on the order in which the user lists the Jacobian", "anchors": ["src/CbcBonmin/Heuristics/BonMilpRounding.cpp: solution"]}
{"id": "C56", "title": "The MIP of the dive-MIP heuristics is the problem with the nonlinear columns fixed", "statement": "A point that keeps the values of the nonlinear columns satisfies the rows of the MIP exactly when it satisfies the rows of the problem that have linear columns.", "quantifier": "all problems whose constraints are affine in the linear columns, all points", "why_tests_cant": "universal over points and Jacobian structures", "anchors": ["src/CbcBonmin/Heuristics/BonHeuristicDiveMIP.cpp: solution"]}
{"id": "C57", "title": "Local branching explores the half-radius neighbourhood of each new incumbent once", "statement": "Local branching runs at most once per solution found, on exactly the feasible points that differ from the incumbent in at most half of the binary columns, and not at all for problems with general integers; fix-and-solve fixes exactly the satisfied objects.", "quantifier": "all histories and incumbents", "why_tests_cant": "history property; universal over points", "anchors": ["src/CbcBonmin/Heuristics/BonHeuristicLocalBranching.cpp: solution, validate", "src/CbcBonmin/Heuristics/BonFixAndSolveHeuristic.cpp: solution"]}
{"id": "C58", "title": "An infeasible verdict of LP strong branching is truthful", "statement": "When strong branching with LPs declares a branch infeasible, no point of the linear relaxation satisfies the bounds of the branch (or none better than the cutoff).", "quantifier": "all bounds, branches and answers of the LP solver that are truthful", "why_tests_cant": "depends on the bounds handed to the LP for every branch", "anchors": ["src/Algorithms/Branching/BonLpBranchingSolver.cpp: solveFromHotStart"]}
{"id": "C59", "title": "ECP rounds return valid cuts and stop as configured", "statement": "The cuts returned are exactly those generated at the successive LP solutions, all of them valid when generation is; the rounds end when the violation is small, no cut is found, the LP is infeasible, or the number of rounds is used up; a value recorded is a lower bound.", "quantifier": "all problems, LP and cut oracles, parameters", "why_tests_cant": "history of rounds", "anchors": ["src/Algorithms/OaGenerators/BonEcpCuts.cpp: generateCuts"]}
{"id": "C60", "title": "The violation measure is the infinity norm of the constraint violation", "statement": "The measured violation of a point is at most t exactly when all its rows hold up to t.", "quantifier": "all rows, points and tolerances", "why_tests_cant": "universal over reals", "anchors": ["src/Interfaces/BonOsiTMINLPInterface.cpp: getConstraintsViolation, getNonLinearitiesViolation"]}
{"id": "C61", "title": "The MILP objective of the MINLP feasibility pump is the distance to the rounded NLP solution", "statement": "Minimising the objective set by the pump over 0-1 points is minimising the distance to the rounding of the NLP solution.", "quantifier": "all NLP solutions and 0-1 points", "why_tests_cant": "universal over reals and points", "anchors": ["src/Algorithms/OaGenerators/BonFpForMinlp.cpp: set_fp_objective"]}
{"id": "C62", "title": "The MINLP feasibility pump claims optimality only when nothing better exists", "statement": "When the pump returns that the node can be pruned, no feasible point is better than its cutoff.", "quantifier": "all problems, solver answers and limits", "why_tests_cant": "only particular combinations of limits and answers are wrong", "anchors": ["src/Algorithms/OaGenerators/BonFpForMinlp.cpp: performOa"]}
{"id": "C63", "title": "LP strong branching leaves the LP as it was", "statement": "After any sequence of probes between markHotStart and unmarkHotStart the bounds of the LP and the status of the interface are those of before.", "quantifier": "all sequences of probes", "why_tests_cant": "history property", "anchors": ["src/Algorithms/Branching/BonLpBranchingSolver.cpp: solveFromHotStart", "src/Interfaces/BonOsiTMINLPInterface.cpp: markHotStart, unmarkHotStart"]}
{"id": "C64", "title": "doEcpRounds returns the value and violation of its own LP", "statement": "The values returned by a call of doEcpRounds are those of the last LP solved in that call.", "quantifier": "all histories of calls", "why_tests_cant": "history property", "anchors": ["src/Algorithms/OaGenerators/BonEcpCuts.cpp: doEcpRounds, generateCuts"]}
{"id": "C65", "title": "Solutions of the MINLP feasibility pump are feasible and improving, and it stops", "statement": "Every solution recorded is feasible and better than the initial cutoff, the upper bound is the value of the best one, all cuts are valid, and the number of passes is bounded by the limit on local searches.", "quantifier": "all problems and solver answers", "why_tests_cant": "induction over passes", "anchors": ["src/Algorithms/OaGenerators/BonFpForMinlp.cpp: performOa"]}
{"id": "C66", "title": "NLP relaxations in the hybrid algorithm leave the NLP as it was", "statement": "The NLP relaxation is solved exactly at the nodes the options say, with the bounds of the node on the integer columns, and afterwards the NLP has its old bounds.", "quantifier": "all sequences of calls, all answers of the NLP solver", "why_tests_cant": "history property; failure paths", "anchors": ["src/Algorithms/OaGenerators/BonOaNlpOptim.cpp: generateCuts"]}
{"id": "C67", "title": "The MILP wrapper returns the solution of the last solve", "statement": "For every history of setLpSolver and solve calls in which columns are added only while no solution is stored, getLastSolution, optimal and lowBound are those of the last solve since the last problem was set, and no memory is overrun.", "quantifier": "all histories", "why_tests_cant": "history property", "anchors": ["src/Algorithms/BonSubMipSolver.cpp: setLpSolver, find_good_sol, optimize"]}
{"id": "C68", "title": "The generator of linear cuts returns exactly its cuts that are not slack", "statement": "After the call the cut collection holds what it held before and those new cuts whose row is at one of its sides at the final NLP solution.", "quantifier": "all collections and cuts", "why_tests_cant": "depends on the contents of the collection before", "anchors": ["src/Algorithms/QuadCuts/BonLinearCutsGenerator.cpp: generateCuts"]}
{"id": "C69", "title": "Solutions stored by the hybrid algorithm's NLP solves are feasible", "statement": "Over any sequence of calls, every cut is valid and every stored solution satisfies the constraints, the bounds of the problem and integrality to 1e-7, and carries its own objective value.", "quantifier": "all sequences of calls at nodes within the bounds of the problem", "why_tests_cant": "history property", "anchors": ["src/Algorithms/OaGenerators/BonOaNlpOptim.cpp: generateCuts"]}
{"id": "C70", "title": "Branch-and-bound gets the parameters and heuristics the options ask for", "statement": "The heuristics installed are exactly those the user's options or the documented defaults request; most fractional branching does no strong branching, reliability branching trusts after 10, other rules use the user's numbers.", "quantifier": "all option lists, prefixes and problems", "why_tests_cant": "all combinations of set, unset and locked options under two names", "anchors": ["src/Algorithms/BonBonminSetup.cpp: initializeBBB", "src/Algorithms/BonBabSetupBase.cpp: gatherParametersValues"]}
{"id": "C71", "title": "Each outer approximation algorithm gets exactly its cut generators", "statement": "B-OA, B-QG, B-Hyb, B-Ecp and B-iFP install exactly the announced cut generators with the announced frequencies; options belonging to other algorithms are overridden by the presets.", "quantifier": "all option lists and prefixes", "why_tests_cant": "all combinations of options", "anchors": ["src/Algorithms/BonBonminSetup.cpp: initializeBHyb, addMilpCutGenerators"]}
{"id": "C72", "title": "Every outer approximation setup checks integer solutions, and the user's locked options win", "statement": "Whatever the options, the last two cut generators are the feasibility check called always and the check at solutions, no other generator carries these flags; the NLP heuristic is first and the others are those asked for; values the user locked survive all presets.", "quantifier": "all option lists, prefixes and algorithms", "why_tests_cant": "for all inputs", "anchors": ["src/Algorithms/BonBonminSetup.cpp: initializeBHyb"]}
{"id": "C73", "title": "The user's branching information reaches the search", "statement": "Cbc branches on every integer column with the user's priority, direction and pseudo-costs and on every special ordered set with its members, weights, type and priority, for every variable selection rule.", "quantifier": "all problems, rules and algorithms", "why_tests_cant": "depends on the combination of rule and algorithm; array encoding of sets of any size", "anchors": ["src/CbcBonmin/BonCbc.cpp: branchAndBound (objects)", "src/Algorithms/BonBabSetupBase.cpp: setPriorities, addSos", "src/Algorithms/BonBonminSetup.cpp"]}
{"id": "C74", "title": "A copied setup is equivalent to the original and owns its parts", "statement": "Copying a setup (with or without another interface) gives the same generators, heuristics, objects and parameters, the copy owns only fresh objects, and copying is defined for every initialised setup.", "quantifier": "all setups and sequences of copies", "why_tests_cant": "ownership and aliasing; sequences", "anchors": ["src/Algorithms/BonBabSetupBase.cpp: copy constructors, destructor", "src/Algorithms/BonBonminSetup.cpp: constructors, initialize"]}
{"id": "C75", "title": "The dynamic diver's modes only advance and lose no node", "statement": "Over any history of tree calls and callbacks the mode never goes back, re-sorting is requested exactly on a change, no node is lost, comparisons follow the mode, cleaning the tree keeps exactly the nodes below the cutoff, and comparisons can be copied.", "quantifier": "all histories", "why_tests_cant": "history property", "anchors": ["src/CbcBonmin/BonDiver.cpp: DiverCompare, CbcDfsDiver::cleanTree", "src/CbcBonmin/BonDiver.hpp: DiverCompare"]}
{"id": "C76", "title": "The guessed objective of a node", "statement": "The guess is the node objective plus the sum over the objects of the smaller of the up and down estimates times the average observed change (own average, or the overall one), never below the objective for nonnegative observations, and never reported as a solution.", "quantifier": "all pseudo-cost states", "why_tests_cant": "for all inputs", "anchors": ["src/CbcBonmin/BonGuessHeuristic.cpp: solution"]}
{"id": "C77", "title": "Types and linearity of the variables of an AMPL model", "statement": "For a model whose variables are in AMPL's order the types and the linearity flags given to the solver are those of the model: a variable is continuous for the solver exactly when it is continuous in the model (a binary that occurs nonlinearly is reported as integer), it is nonlinear exactly when it occurs nonlinearly in the objective or a constraint, the objective is linear exactly when no variable occurs nonlinearly in it, and no entry outside the arrays is written.", "quantifier": "all models in AMPL's order", "why_tests_cant": "the nine blocks may be empty in any combination", "anchors": ["src/Interfaces/Ampl/BonAmplTMINLP.cpp: get_variables_types, get_variables_linearity, Initialize"]}
{"id": "C78", "title": "Priorities, pseudo-costs, indicators and set types of an AMPL model", "statement": "A larger priority suffix means branched on earlier; missing up or down pseudo-costs are replaced by the others; every indicator constraint is linked to the last variable with its id, and the program stops exactly when a suffix or an id is missing; sets of type 1 and 2 keep their types and others stop the program.", "quantifier": "all suffix values", "why_tests_cant": "for all inputs", "anchors": ["src/Interfaces/Ampl/BonAmplTMINLP.cpp: read_priorities, read_onoff, read_sos"]}
{"id": "C79", "title": "The result AMPL gets", "statement": "The result code tells how the run ended and, for interrupted runs, whether there is a solution, as documented; the best solution is passed on unchanged if there is one; reporting works after every run.", "quantifier": "all runs, both settings of file_solution", "why_tests_cant": "for all runs", "anchors": ["src/Interfaces/Ampl/BonAmplTMINLP.cpp: finalize_solution, write_solution", "src/CbcBonmin/BonCbc.cpp: branchAndBound"]}
{"id": "C80", "title": "The linear part of the objective of an AMPL model", "statement": "getLinearPartOfObjective gives zero for the variables that are nonlinear in the objective and the gradient entry for all others.", "quantifier": "all models in AMPL's order, all gradients", "why_tests_cant": "for all inputs", "anchors": ["src/Interfaces/Ampl/BonAmplTMINLP.cpp: getLinearPartOfObjective"]}
{"id": "C81", "title": "Objectives, concave constraints and directions of an AMPL model", "statement": "An objective marked with UBObj gives the upper bounds and another one is minimised; a constraint marked as simple concave is reported with the variable that carries its id and the other variable of the constraint, and a wrong description stops the program; the direction suffix of a variable is the direction of branching for that variable; a suffix handler passed by the caller is used.", "quantifier": "all suffix values", "why_tests_cant": "for all inputs", "anchors": ["src/Interfaces/Ampl/BonAmplTMINLP.cpp: read_obj_suffixes, read_convexities, read_priorities, Initialize"]}
{"id": "C82", "title": "The status reported by filterSQP is truthful", "statement": "The status TNLPSolver returns and the one given to finalize_solution say the same as filterSQP's code: optimal, unbounded, infeasible, locally infeasible, limit, and the objective value passed on is the one of the problem.", "quantifier": "all codes of filterSQP", "why_tests_cant": "the back end cannot be made to return every code", "anchors": ["src/Interfaces/Filter/BonFilterSolver.cpp: callOptimizer"]}
{"id": "C83", "title": "Solves of several filterSQP objects do not disturb each other", "statement": "For every interleaving of construction, copies, warm starts and solves of several FilterSolver objects, each solve hands filterSQP the given problem, the object's own options and the warm start set last, and nothing left behind in the global common blocks by another object.", "quantifier": "all histories of operations on any number of objects", "why_tests_cant": "global Fortran common blocks and shared arrays; history property", "anchors": ["src/Interfaces/Filter/BonFilterSolver.cpp: OptimizeTNLP, ReOptimizeTNLP, cachedInfo, setWarmStart"]}
{"id": "C84", "title": "resolve uses the warm start", "statement": "When the interface resolves with filterSQP, the solve starts from the warm start set before.", "quantifier": "all warm starts and histories", "why_tests_cant": "history property", "anchors": ["src/Interfaces/BonOsiTMINLPInterface.cpp: resolve", "src/Interfaces/Filter/BonFilterSolver.cpp: ReOptimizeTNLP, setWarmStart"]}
{"id": "C85", "title": "Multipliers from filterSQP", "statement": "The bound multipliers passed to finalize_solution are nonnegative parts of filterSQP's multipliers, at most one of the two per variable is nonzero, and together with the constraint multipliers they satisfy the stationarity condition that filterSQP's satisfy.", "quantifier": "all answers of filterSQP", "why_tests_cant": "for all inputs", "anchors": ["src/Interfaces/Filter/BonFilterSolver.cpp: callOptimizer"]}
{"id": "C86", "title": "Candidates of QP strong branching are evaluated independently and truthfully", "statement": "After a hot start is marked, the result for a candidate depends only on its bounds and the marked state, not on the candidates tried before; a solve works on the problem it is given with its present bounds; code 7 is never left behind; the status says what bqpd found.", "quantifier": "all sequences of candidates and all answers of bqpd", "why_tests_cant": "history property; failure paths of the QP solver", "anchors": ["src/Interfaces/Filter/BonBqpdSolver.cpp: OptimizeTNLP, ReOptimizeTNLP, cachedInfo::optimize, markHotStart, callOptimizer", "src/Algorithms/Branching/BonQpBranchingSolver.cpp: markHotStart, solveFromHotStart"]}
{"id": "C87", "title": "Curvature branching estimates follow the curvature of the step into the branch", "statement": "The objective estimated for a branch is the node's objective plus half the curvature of the Lagrangian along the projection of the step into the branch onto the null space of the active constraints that the step pushes against; it uses the derivatives at the solution of the marked node; a direction that violates the active constraints is rejected; the estimate is defined for every problem.", "quantifier": "all problems, directions, multipliers and histories of hot starts", "why_tests_cant": "linear algebra over arbitrary index maps and histories", "anchors": ["src/Interfaces/BonCurvatureEstimator.cpp: ComputeNullSpaceCurvature, PrepareNewMatrixStructure, SolveSystem, Compute_dTHLagd", "src/Algorithms/Branching/BonCurvBranchingSolver.cpp: markHotStart, solveFromHotStart"]}
{"id": "C88", "title": "Copies of the NLP problem object show the same problem", "statement": "A copy or an assigned NLP problem shows the bounds, starting point, solution, multipliers and objective of its source, whatever was done to the source and to the target before; copying and assigning are defined after every history; adding cuts does not change the starting point.", "quantifier": "all problems and histories of bound changes, starting points, solves, added and removed cuts and resets", "why_tests_cant": "holds over unbounded histories, array sizes and both object states", "anchors": ["src/Interfaces/BonTMINLP2TNLP.cpp: gutsOfCopy, operator=, copy constructor, Set_x_sol, resetStartingPoint", "src/Algorithms/QuadCuts/BonTMINLP2Quad.cpp: copy constructor, addCuts, removeCuts, set_linear_objective, eval_f"]}
{"id": "C89", "title": "Copies and assignments of the NLP interface answer like the original", "statement": "A copied or assigned NLP interface answers every query (bounds, starting point, solution, objective, status, settings) like its source, solves the problem its mode asks for, and generates outer approximation cuts for every nonlinear row.", "quantifier": "all models and histories of model changes, mode switches, solves, copies and assignments", "why_tests_cant": "holds over unbounded histories and two interacting objects", "anchors": ["src/Interfaces/BonOsiTMINLPInterface.cpp: copy constructor, operator=, clone, setModel, initializeJacobianArrays, getOuterApproximation"]}
{"id": "C90", "title": "Options of the NLP interface are honoured", "statement": "After the options are read, every setting of the NLP interface is the value given with the solver's prefix, else the plain value, else the registered default (with the documented defaults for filterSQP); reading again follows changed options; every registered option of the interface (including those for the dynamic cutoff decrement and the small infeasibility threshold) has its documented effect.", "quantifier": "all option lists, registries, prefixes, solvers and histories of option changes and solves", "why_tests_cant": "options interact over histories; an option without effect cannot be seen by testing one value", "anchors": ["src/Interfaces/BonOsiTMINLPInterface.cpp: extractInterfaceParams, register_general_options, resolveForCost, resolve, createApplication", "src/CbcBonmin/BonCbc.cpp: CbcCutoffIncrement"]}
{"id": "C91", "title": "Solves start where they should", "statement": "With warm starts by the optimum, a solve after a warm start was put in starts at its point with its multipliers, and after every successful solve the warm start offered is the point and the multipliers of that solve; without warm starts every node starts at the point and multipliers put there after the root, also after failures and retries; a first solve starts at the user's point; forgetting a point restores the user's.", "quantifier": "all warm starts, points, outcomes of solves, numbers of retries and sequences of nodes", "why_tests_cant": "the start depends on the history of failures and retries, which a test cannot provoke at will", "anchors": ["src/Interfaces/BonOsiTMINLPInterface.cpp: initialSolve, resolve, resolveForCost, resolveForRobustness, setColSolution, setWarmStart", "src/Interfaces/Ipopt/BonIpoptSolver.cpp: getUsedWarmStart, setWarmStart", "src/Interfaces/BonTMINLP2TNLP.cpp: get_starting_point"]}
{"id": "C92", "title": "Interior iterates are carried over to the right variables", "statement": "When the iterates of a solve are kept to start the next subproblem from (InteriorPoint warm starts), every variable that is still free starts at its own value and its own bound multipliers in the stored iterate, whatever variables were fixed or bounds tightened in between; the iterate taken is the fourth latest, and iterates of the restoration phase are not kept.", "quantifier": "all problems, bounds before and after branching, infinite bounds, and sequences of iterates", "why_tests_cant": "misalignment shows only as slower convergence, never as a wrong result of a call", "anchors": ["src/Interfaces/Ipopt/BonIpoptInteriorWarmStarter.cpp: UpdateStoredIterates, WarmStartIterate"]}
{"id": "C93", "title": "Failure reports describe the failure", "statement": "The error of a subproblem that could not be solved names the status Ipopt ended with; the files written for it describe the failed subproblem: applying the bounds file to the original problem gives the bounds of the subproblem, the AMPL file adds constraints with different names, and reading the start file gives the starting point and multipliers used.", "quantifier": "all status numbers, bounds, original bounds, starting points and multipliers", "why_tests_cant": "the files are written only on failures of the external solver", "anchors": ["src/Interfaces/BonTNLPSolver.cpp: printError, writeDiffFiles", "src/Interfaces/Ipopt/BonIpoptSolver.cpp: errorName", "src/Interfaces/BonStartPointReader.cpp: readFile, readAndApply", "src/Interfaces/BonBoundsReader.cpp: read", "src/CbcBonmin/BonCbcNlpStrategy.cpp: status"]}
{"id": "C94", "title": "The alternative objective decides which solution is returned", "statement": "When the problem declares a second objective function for upper bounds, branch-and-bound returns, among all integer feasible points at which some NLP of this search was solved to optimality on any copy of the interface, one with the least value of that function, and reports this value as objective.", "quantifier": "all problems, alternative objectives and sequences of searches, clones, assignments and NLP solves", "why_tests_cant": "which copies of the solver share the record depends on the history of the whole run", "anchors": ["src/Interfaces/BonOsiTMINLPInterface.cpp: solveAndCheckErrors", "src/Interfaces/BonAuxInfos.cpp: AuxInfo", "src/Interfaces/BonAuxInfos.hpp: setBestSolution2", "src/CbcBonmin/BonBabInfos.cpp: BabInfo", "src/CbcBonmin/BonCbc.cpp: branchAndBound"]}
{"id": "C95", "title": "Auxiliary information objects are values", "statement": "An NLP solution passed to an AuxInfo object is what this object, and every copy made of it afterwards, returns, with its objective value, whatever is done to other objects; no array is freed twice or lost.", "quantifier": "all sequences of creations, copies, destructions and calls, all solutions", "why_tests_cant": "ownership of arrays between clones of solvers", "anchors": ["src/Interfaces/BonAuxInfos.cpp: AuxInfo, setNlpSolution, nlpObjValue", "src/Interfaces/BonAuxInfos.hpp: nlpSolution"]}
{"id": "C96", "title": "Names of variables and constraints come from the .col and .row files", "statement": "Reading the names of a model gives every name its position in the file: asking for a name returns its index, an unknown name is reported, the file is found whatever the length of the stub, and with option read_names the interface answers with these names.", "quantifier": "all stubs, files, capacities of the growing array and sequences of questions", "why_tests_cant": "memory of the keys depends on the growth of a vector and on the length of the names", "anchors": ["src/Interfaces/BonColReader.cpp: readFile, copyNames", "src/Interfaces/BonColReader.hpp: index", "src/Interfaces/Ampl/BonAmplInterface.cpp: readNames"]}
{"id": "C97", "title": "The solution file read for debugging is the one written", "statement": "With option read_solution_file the point that the row cut debugger gets is the solution in the file written by an earlier run on this problem; a file that is missing, has no solution or belongs to another problem is reported.", "quantifier": "all solutions, statuses of the earlier run, files and numbers of variables", "why_tests_cant": "a file format with free text; which text depends on how the earlier run ended", "anchors": ["src/Interfaces/Ampl/BonSolReader.cpp: readFile", "src/Algorithms/Ampl/BonAmplSetup.cpp: initialize", "src/Interfaces/Ampl/BonAmplTMINLP.cpp: finalize_solution"]}
{"id": "C98", "title": "The options choose the MILP solver and its cuts", "statement": "Option milp_solver decides which MILP solver the decomposition methods use; with Cbc_Par every family of cuts is generated with the frequency of its option (its default if not set), never twice, and not at all if the option says so.", "quantifier": "all options, prefixes, compile time choices and models with cut generators already installed", "why_tests_cant": "depends on which options are registered, set or left at their default", "anchors": ["src/Algorithms/BonCbcLpStrategy.cpp: setup, setupCutGenerators, has_cg", "src/Algorithms/BonSubMipSolver.cpp: SubMipSolver", "src/Algorithms/BonBonminSetup.cpp: registerMilpCutGenerators"]}
{"id": "C99", "title": "Registered options: validity, tables and the file of defaults", "statement": "The table of options lists each option of a kind exactly once below its category with a mark for exactly the algorithms it was declared valid for, each category once; declaring an option valid for an algorithm does not change its validity for others; the file of defaults, read as options file, gives every option its default; the documentation covers all options.", "quantifier": "all registrations, sequences of declarations, names, categories and defaults", "why_tests_cant": "the table depends on the whole history of registrations", "anchors": ["src/Interfaces/BonRegisteredOptions.hpp: setOptionExtraInfo, optionValidForHybrid, isValidForHybrid, categoriesInfo", "src/Interfaces/BonRegisteredOptions.cpp: writeLatexOptionsTable, chooseOptions, writeBonminOpt", "src/Interfaces/Ampl/BonAmplTMINLP.cpp: fillAmplOptionList", "src/Algorithms/BonBabSetupBase.cpp: mayPrintDoc"]}
{"id": "C100", "title": "The MILP solver with CPLEX", "statement": "After a solve with CPLEX there is a solution exactly if CPLEX has one, and it is that solution; turning cuts into lazy constraints does not change the problem; the LP passed in is never freed and one made by the solver exactly once.", "quantifier": "all answers of CPLEX, rows, cuts and sequences of constructions, copies, calls and destructions", "why_tests_cant": "needs a commercial solver, limits and unbounded problems", "anchors": ["src/Algorithms/BonSubMipSolver.cpp: find_good_sol, optimize, optimize_with_lazy_constraints, setLpSolver"]}
{"id": "C101", "title": "Senses, right-hand sides and ranges describe the current rows", "statement": "getRowSense, getRightHandSide and getRowRange always give one description per current row which allows exactly the values between the bounds of the row, after any sequence of queries, of cuts added or removed and of models replaced; cuts that cannot be added raise an exception.", "quantifier": "all problems, bounds and sequences of calls", "why_tests_cant": "the arrays are cached; whether they are current depends on the order of calls", "anchors": ["src/Interfaces/BonOsiTMINLPInterface.cpp: extractSenseRhsAndRange, getRowSense, getRightHandSide, getRowRange, freeCachedRowRim, applyRowCuts, setModel, use", "src/Interfaces/BonOsiTMINLPInterface.hpp: applyCuts, applyRowCuts, applyRowCut, deleteRows"]}
{"id": "C102", "title": "The last bound and type given to a variable is the one it has", "statement": "After any sequence of calls that set bounds or types, each lower bound, upper bound and type of each variable is the last one given for it, and the original one if none was given; the queries of types agree with each other; every such call discards the last solution.", "quantifier": "all problems and sequences of calls, on single variables and whole arrays", "why_tests_cant": "single and array versions of setters interleave", "anchors": ["src/Interfaces/BonOsiTMINLPInterface.cpp: setColLower, setColUpper, setInteger, setContinuous, isContinuous, isBinary, isInteger, isIntegerNonBinary", "src/Interfaces/BonTMINLP2TNLP.cpp: SetVariableLowerBound, SetVariablesLowerBounds, SetVariableType"]}
{"id": "C103", "title": "Binary variables stay binary and are free exactly if not fixed", "statement": "isFreeBinary answers yes exactly for binary variables whose bounds differ; a binary variable that is relaxed and declared integer again is binary again.", "quantifier": "all types and bounds", "why_tests_cant": "depends on bounds reached in the search and on the order of declarations", "anchors": ["src/Interfaces/BonOsiTMINLPInterface.cpp: isFreeBinary, isBinary, setInteger, setContinuous"]}
{"id": "C104", "title": "A parameter is accepted exactly if it is then returned", "statement": "Setting a parameter of the Osi interface answers true exactly if the value is returned by the following queries until it is set again; if it answers false nothing changes.", "quantifier": "all keys, values and sequences of settings", "why_tests_cant": "fall-through of cases shows only for single keys", "anchors": ["src/Interfaces/BonOsiTMINLPInterface.cpp: setIntParam, setDblParam, setStrParam, getIntParam, getDblParam, getStrParam"]}
{"id": "C105", "title": "Solutions, prices and activities returned are those given or computed", "statement": "getColSolution returns the point last given or computed; getRowPrice one price and getRowActivity one activity per row; adding or removing cuts changes neither the starting point nor what belongs to other rows.", "quantifier": "all problems, answers of the NLP solver and sequences of calls", "why_tests_cant": "depends on which of several arrays is returned and on resizing", "anchors": ["src/Interfaces/BonOsiTMINLPInterface.cpp: getColSolution, getRowPrice, getRowActivity, setColSolution, setRowPrice", "src/Interfaces/BonTMINLP2TNLP.cpp: setxInit, setDualsInit, resetStartingPoint, finalize_solution", "src/Algorithms/QuadCuts/BonTMINLP2Quad.cpp: addCuts, removeCuts"]}
{"id": "C106", "title": "The fake basis is a basis that shows which rows are active", "statement": "With warm start fake_basis, getWarmStart gives a basis in which inactive rows are basic, active rows are at the bound they are active at and equality rows are free.", "quantifier": "all bounds and activities", "why_tests_cant": "depends on tolerances and on activities computed", "anchors": ["src/Interfaces/BonOsiTMINLPInterface.cpp: build_fake_basis, getWarmStart"]}
{"id": "C107", "title": "The search is configured exactly by the setup", "statement": "Before the search, Cbc has exactly the cut generators and heuristics of the setup, its special options, failure strategy, node comparison and tree, all limits and tolerances, and a cutoff strictly above the one asked for.", "quantifier": "all setups and all states of the model before", "why_tests_cant": "the settings of earlier runs show only when the same Bab is used again with another setup", "anchors": ["src/CbcBonmin/BonCbc.cpp: Bab::branchAndBound", "src/Algorithms/BonBabSetupBase.hpp: NodeComparison, TreeTraversal, CuttingMethod"]}
{"id": "C108", "title": "Interruptions, errors and the time limit are reported and end with the run", "statement": "The search gets exactly the time that is left and is made only if some is left; otherwise the limit is reported; a signal stops the run, is reported as an interruption and does not affect later runs; after an error neither status nor solution claims success.", "quantifier": "all times, signals and errors in each phase, all process states", "why_tests_cant": "signals, errors and the clock come at any moment; global flags survive the run", "anchors": ["src/CbcBonmin/BonCbc.cpp: signal_handler, Bab::branchAndBound"]}
{"id": "C109", "title": "Outer approximation gets one object for each branching object", "statement": "The decompositions are given one branching object for each object of the model, in order; if one cannot be given, an exception is raised and the Bab can still be destroyed or used again.", "quantifier": "all lists of objects", "why_tests_cant": "unsupported objects exist only in extensions; the damage shows at destruction", "anchors": ["src/CbcBonmin/BonCbc.cpp: Bab::branchAndBound, Bab::~Bab"]}
{"id": "C110", "title": "The violation of a quadratic cut is that of its row", "statement": "The violation returned for a quadratic cut at a point is the amount by which a\u00b7x + x\u1d40Qx lies outside the bounds; it is zero or negative exactly at points satisfying the cut, and agrees with the quadratic row built from the cut.", "quantifier": "all cuts, matrices in either storage form and points", "why_tests_cant": "needs a full matrix or a constant term to go wrong", "anchors": ["src/Algorithms/QuadCuts/BonQuadCut.cpp: violated", "src/Algorithms/QuadCuts/BonTMatrix.cpp: TMat::create"]}
{"id": "C111", "title": "A collection of cuts owns its quadratic cuts", "statement": "Insertion copies or takes over cuts as documented, copies of collections are deep, every quadratic cut is destroyed exactly once, and no operation uses a destroyed cut.", "quantifier": "all sequences of insertions, copies, assignments, erasures and destructions", "why_tests_cant": "needs sanitizers and long mixtures of operations; inserting a collection into itself is not tried", "anchors": ["src/Algorithms/QuadCuts/BonQuadCut.cpp: Cuts", "src/Algorithms/QuadCuts/BonQuadCut.hpp: Cuts"]}
{"id": "C112", "title": "The objective of the first linear relaxation underestimates the objective of the problem", "statement": "With a linear objective the program has exactly that objective, constant included; otherwise each point within the bounds together with the value of a convex objective satisfies the row added, whose cost is that value; if nothing is removed the row demands the value of the linearisation.", "quantifier": "all convex objectives, gradients, bounds, tolerances and points", "why_tests_cant": "a row cutting off good points shows only as a lost optimum", "anchors": ["src/Interfaces/BonOsiTMINLPInterface.cpp: extractLinearRelaxation, addObjectiveFunction"]}
{"id": "C113", "title": "Defaults of local searches apply exactly where the user has said nothing", "statement": "Each local search has default limits; creating a heuristic with local searches changes an option exactly if it is one of its defaults and the user has not set it, with the prefix of the search or without prefix; what the user set is used, options of other searches do not change, and creating a second heuristic of the same kind changes nothing.", "quantifier": "all options lists, prefixes, options and kinds of heuristics", "why_tests_cant": "depends on which options are set with which prefix; the effect is a search with other limits", "anchors": ["src/CbcBonmin/Heuristics/BonLocalSolverBasedHeuristic.cpp: changeIfNotSet, setupDefaults, Initialize", "src/CbcBonmin/Heuristics/BonPumpForMinlp.cpp: setupDefaults"]}
{"id": "C114", "title": "Pumps started from the root return feasible points with their objective values", "statement": "The pump heuristics run only at the root in the first pass; a point returned is feasible, is returned with its objective value, and is within the cutoff.", "quantifier": "all searches (as oracle), problems and relaxation solutions", "why_tests_cant": "a wrong value shows only if Cbc trusts it", "anchors": ["src/CbcBonmin/Heuristics/BonPumpForMinlp.cpp: solution", "src/CbcBonmin/Heuristics/BonDummyPump.cpp: solution", "src/CbcBonmin/Heuristics/BonLocalSolverBasedHeuristic.cpp: doLocalSearch"]}
{"id": "C115", "title": "Local searches release what they are given, once", "statement": "A call of a heuristic with a local search leaves allocated exactly what was allocated before, deletes nothing twice, and leaves the objects of the setup intact.", "quantifier": "all heuristics with local searches, algorithms and heaps", "why_tests_cant": "double deletion and leaks need sanitizers, and the heuristics are off by default", "anchors": ["src/CbcBonmin/Heuristics/BonLocalSolverBasedHeuristic.cpp: doLocalSearch", "src/CbcBonmin/Heuristics/BonHeuristicRINS.cpp: solution", "src/CbcBonmin/Heuristics/BonFixAndSolveHeuristic.cpp: solution", "src/CbcBonmin/Heuristics/BonDummyPump.cpp: solution", "src/Algorithms/BonBabSetupBase.cpp: BabSetupBase, ~BabSetupBase"]}
{"id": "C116", "title": "Every parameter of the search comes from its option", "statement": "After initialisation, each limit, tolerance and choice of the tree search equals the value of the option documented for it (or the value the algorithm is documented to prescribe), and reaches the search unchanged.", "quantifier": "all option lists, prefixes, algorithms and setups", "why_tests_cant": "a parameter read from the wrong option or dropped is seen only with values far from the default, and options interact", "anchors": ["src/Algorithms/BonBabSetupBase.cpp: gatherParametersValues, defaultIntParam_, defaultDoubleParam_, registerAllOptions", "src/Algorithms/BonBabSetupBase.hpp: IntParameter, DoubleParameter", "src/Algorithms/BonBonminSetup.cpp: initializeBBB, initializeBHyb"]}
{"id": "C117", "title": "The first source of an option counts", "statement": "However options are given (bonmin.opt, another file, a string, the program), the value used is the first one read for that name; one set by the program before reading yields to a file unless protected, one set after never replaces a value read; bonmin.opt is read exactly if nothing was read before.", "quantifier": "all sequences of reads, settings and initialisations", "why_tests_cant": "which source wins depends on the order of calls and on what the files contain", "anchors": ["src/Algorithms/BonBabSetupBase.cpp: readOptionsFile, readOptionsString, readOptionsStream, initializeOptionsAndJournalist, use", "src/Algorithms/BonBabSetupBase.hpp: readOptionsFile", "src/Algorithms/Ampl/BonAmplSetup.cpp: initialize"]}
{"id": "C118", "title": "The algorithm run is the one selected, also when a setup is initialised again", "statement": "Each initialisation sets up the algorithm the option names at that moment, and after any number of initialisations the setup deletes every object made for it once.", "quantifier": "all histories of reads, settings and initialisations from problems and interfaces", "why_tests_cant": "repeated initialisation is rare in tests, and lost objects are not observable without a sanitizer", "anchors": ["src/Algorithms/BonBonminSetup.cpp: initialize, getAlgorithm, initializeBBB, initializeBHyb", "src/Algorithms/BonBabSetupBase.cpp: use, ~BabSetupBase"]}
{"id": "C119", "title": "The problem solved to strengthen a cut is the right one", "statement": "The nonlinear problem set up to strengthen a linearisation has as feasible points exactly those of the constraint within the bounds, and as objective the activity of the cut; so a bound it yields is valid and the best there is, and setting it up never ends the program.", "quantifier": "all user functions, constraints, bounds, points and cuts; a solver that finds minima", "why_tests_cant": "a wrong column or bound gives a slightly invalid cut only for some models; the random point and the numbering of columns vary", "anchors": ["src/Interfaces/BonCutStrengthener.cpp: StrengthenCut, StrengtheningTNLP::StrengtheningTNLP, get_bounds_info, get_starting_point, eval_f, eval_g, eval_jac_g, update_x_full, StrengthenedBound"]}
{"id": "C120", "title": "Strengthened linearisations are valid where they are used", "statement": "Without disjunctions, a strengthened cut flagged global holds on the whole problem and one that is not holds within the bounds of the node; it has the coefficients of the linearisation, is at least as strong, and is inserted exactly if local cuts were asked for, the problem was solved and a bound moved by at least 1e-4.", "quantifier": "all cuts, bounds, points, types of strengthening and answers of the strengthening problem", "why_tests_cant": "an invalid local cut flagged global cuts off optima only deep in some trees", "anchors": ["src/Interfaces/BonCutStrengthener.cpp: ComputeCuts, HandleOneCut", "src/Interfaces/BonOsiTMINLPInterface.cpp: getOuterApproximation, getConstraintOuterApproximation"]}
{"id": "C121", "title": "Disjunctive cuts asked for are made and valid", "statement": "If disjunctive cuts are asked for, linearisations are strengthened with a disjunction on the most fractional variable, the results hold at every feasible point, and every improvement found is used.", "quantifier": "all cuts, points, bounds and settings of the two options", "why_tests_cant": "an improvement that is dropped leaves no trace", "anchors": ["src/Interfaces/BonCutStrengthener.cpp: ComputeCuts, HandleOneCut", "src/Interfaces/BonOsiTMINLPInterface.cpp: extractInterfaceParams"]}
{"id": "C122", "title": "The problem with appended cuts evaluates to the problem plus its cuts", "statement": "With quadratic or linear cuts appended, constraint values are the user's followed by the values of the cuts, row m+k of the Jacobian is the derivative of cut k and the user's rows are unchanged, as many entries are written as announced, a cut reported as linear is affine, and a linear objective that is set replaces value and gradient of the user's until it is reset.", "quantifier": "all user functions, lists of cuts, orderings found by the sorts, points, directions and styles of numbering", "why_tests_cant": "a shifted row or a missing factor two in one entry gives a slightly wrong Newton step; only some solvers check derivatives", "anchors": ["src/Algorithms/QuadCuts/BonTMINLP2Quad.cpp: eval_f, eval_grad_f, eval_g, eval_jac_g, get_constraints_linearity, set_linear_objective", "src/Algorithms/QuadCuts/BonQuadRow.cpp: eval_f, gradiant_struct, eval_grad"]}
{"id": "C123", "title": "A copy of the problem with appended cuts is the same problem", "statement": "A copy of a problem with appended cuts has the same constraints, Jacobian structure, reports of linearity, Hessian and objective.", "quantifier": "all problems, lists of cuts, orderings found by the sorts of the copy and objectives", "why_tests_cant": "a copy is made for each subsolver; what it misses shows only when both are evaluated at the same point", "anchors": ["src/Algorithms/QuadCuts/BonTMINLP2Quad.cpp: TMINLP2TNLPQuadCuts (copy)", "src/Algorithms/QuadCuts/BonQuadRow.cpp: QuadRow (copy)"]}
{"id": "C124", "title": "Single appended constraints and scaling can be asked for", "statement": "Value and gradient of a single appended constraint can be asked for and are reported as computed; a request for user scaling is passed on to the user's problem.", "quantifier": "all problems, cuts, points and directions", "why_tests_cant": "the callers are few and treat a failure as an abort", "anchors": ["src/Algorithms/QuadCuts/BonTMINLP2Quad.cpp: eval_gi, eval_grad_gi, get_scaling_parameters"]}
{"id": "C125", "title": "Branching on an n-way object keeps every solution", "statement": "For a set of binary variables of which exactly one is 1, every solution of the node whose member has not been discarded by a bound above the cutoff lies in exactly one of the branches created for the set (the member at 1 with its consequences at 0, or the branch for the skipped members).", "quantifier": "all sets of members, consequences, bounds, points, depths, settings and orders found by the sort", "why_tests_cant": "a lost solution shows only as a worse optimum, on instances where the optimum is in the branch that is missing", "anchors": ["experimental/RobotBonmin/BonNWayObject.cpp: createBranch, branch", "experimental/RobotBonmin/BonNWayObject.hpp: applyToSolver, numberBranches"]}
{"id": "C126", "title": "N-way objects recognise, fix and cut off points correctly", "statement": "The infeasibility of an n-way object is 0 exactly if every member is within the tolerance of a bound and otherwise the largest distance (at most 1/2 for binaries); fixing a satisfied object fixes every member at the bound it is close to and returns how much was moved; every branch fixes all listed members and excludes the point if a member that is not discarded is off its bounds.", "quantifier": "all members, bounds, points, tolerances, depths and settings", "why_tests_cant": "a branch that keeps the point repeats for ever, but only for particular points and depths", "anchors": ["experimental/RobotBonmin/BonNWayObject.cpp: infeasibility, feasibleRegion, createBranch, branch"]}
{"id": "C127", "title": "Copies and settings of n-way objects", "statement": "A copy of an n-way object, or one it is assigned to, behaves like the original; an object told to branch quickly does not branch up on members whose value is 0.", "quantifier": "all objects, bounds, consequences, settings and points", "why_tests_cant": "the bounds matter only after the cutoff has improved, and memory errors show only with tools", "anchors": ["experimental/RobotBonmin/BonNWayObject.cpp: BonNWayObject (copy), operator=, createBranch", "experimental/RobotBonmin/BonNWayObject.hpp: make_quick, set_bounds"]}
{"id": "C128", "title": "Strong branching on n-way objects discards nothing that is better than the cutoff", "statement": "Strong branching on n-way objects fixes only members, only to 0, keeps every solution of the node not worse than the cutoff and reports the node infeasible only if there is no such solution.", "quantifier": "all objects, solvers that are right, cutoffs, bounds, depths, orders found by sorts and lists of candidates", "why_tests_cant": "a solution is lost only for particular interleavings of fixings and branches; the search then ends with a worse optimum", "anchors": ["experimental/RobotBonmin/BonNWayChoose.cpp: doStrongBranching, chooseVariable", "experimental/RobotBonmin/BonNWayObject.hpp: var_branched_on, seq_branched_on"]}
{"id": "C129", "title": "Bounds recorded for members of n-way objects stay valid", "statement": "What strong branching at the root records for a member bounds every solution with that member at 1 for all later cutoffs, and fixing members by recorded bounds keeps every solution not worse than the cutoff.", "quantifier": "all objects, rows, right solvers, later cutoffs and nodes below the root", "why_tests_cant": "the rows are used long after they were recorded, at nodes and with cutoffs no test foresees", "anchors": ["experimental/RobotBonmin/BonNWayChoose.cpp: setupList (initial bounds), doStrongBranching, chooseVariable (quick fixing)"]}
{"id": "C130", "title": "The code returned by the choice among n-way objects says what it is documented to say", "statement": "The choice returns 1 exactly if every object is satisfied; otherwise -1, 0, 2 or 3, with one of the unsatisfied objects as candidate unless the node is infeasible, and 2 if bounds have been changed.", "quantifier": "all lists of objects, priorities, scores, bounds and depths", "why_tests_cant": "the caller acts on the code alone; a wrong code shows up as a crash or a node solved with stale bounds", "anchors": ["experimental/RobotBonmin/BonNWayChoose.cpp: chooseVariable"]}
{"id": "C131", "title": "n-way objects are made from the SOS constraints as given", "statement": "addNWays makes one n-way object per set, in order, with the variables of the set as members, the priority of the set if it has one and else 1, and as consequences of a member the other variables of all sets that have the same weight.", "quantifier": "all SOS data, priorities and options", "why_tests_cant": "wrong consequences cut off solutions only when the branch that uses them is explored; data of usual shape hide the wrong index", "anchors": ["experimental/RobotBonmin/RobotSetup.cpp: addNWays"]}
{"id": "C132", "title": "The list of candidates for branching on n-way objects has what is to be branched on", "statement": "setupList lists every unsatisfied object exactly once and returns their number without failing an assertion; the objects offered for strong branching come first and are the unsatisfied ones of the best priority, best value first.", "quantifier": "all numbers of objects, infeasibilities, priorities, usefulness values, sorts and settings", "why_tests_cant": "the list is kept in one array filled from both ends with flushing on better priorities; only some orders of priorities and values would show an object lost", "anchors": ["experimental/RobotBonmin/BonNWayChoose.cpp: setupList"]}
{"id": "C133", "title": "Usefulness of an n-way object estimates the changes of the objective by its branches", "statement": "The usefulness is the sum (product for geometric means) over the free members of the estimated change of the objective, is not negative and does not fall if pseudo-costs or recorded bounds rise.", "quantifier": "all members, bounds, solutions, pseudo-costs, cutoffs and multipliers", "why_tests_cant": "usefulness only orders candidates, so wrong values show up as larger trees, not as failures", "anchors": ["experimental/RobotBonmin/BonNWayChoose.cpp: compute_usefulness"]}
{"id": "C134", "title": "Pseudo-costs of n-way objects are means of the changes found", "statement": "The pseudo-cost of a member is the mean (arithmetic or geometric as asked for) of the changes per unit found by strong branching in this search.", "quantifier": "all sequences of evaluations at the root and below, all changes", "why_tests_cant": "pseudo-costs are the result of the whole history of a search, which no test enumerates", "anchors": ["experimental/RobotBonmin/BonNWayChoose.cpp: setupList (rows at the root), doStrongBranching (recording), compute_usefulness (means)"]}
{"id": "C135", "title": "Chords are an inner approximation", "statement": "Every point within the column bounds that meets all chord cuts of a nonlinear row meets the row itself, so that solutions of the MIP of the inner approximation heuristic are solutions of the MINLP.", "quantifier": "all convex functions, bounds, numbers of points, points", "why_tests_cant": "a heuristic returning an infeasible point is seen only if the wrong point is also the best one; feasibility is a statement about all points", "anchors": ["experimental/Separable/SepaHeuristicInnerApproximation.cpp: getMyInnerApproximation, extractInnerApproximation"]}
{"id": "C136", "title": "Making the inner approximation ends the process only when a nonlinear row has nothing to move", "statement": "With distinct columns in the rows no exception is thrown, and the call of exit(1) happens exactly when at least two points are asked for and some nonlinear row has all its columns' steps below 1e-8 (for instance its variables are fixed).", "quantifier": "all rows, bounds, numbers of points", "why_tests_cant": "the exit takes the whole program down; that it happens for no other data is a statement about all data", "anchors": ["experimental/Separable/SepaHeuristicInnerApproximation.cpp: extractInnerApproximation (466-487)"]}
{"id": "C137", "title": "The inner approximation heuristic returns feasible solutions", "statement": "A solution returned by Sepa::HeuristicInnerApproximation is feasible for the MINLP and better than the value given.", "quantifier": "all problems, MIP solvers, values", "why_tests_cant": "the check of the returned point is compiled out, so soundness rests on the approximation for all problems", "anchors": ["experimental/Separable/SepaHeuristicInnerApproximation.cpp: solution"]}
{"id": "C138", "title": "The Bonmin variant of the heuristic returns NLP solutions with rounded integers", "statement": "A solution returned by Bonmin::HeuristicInnerApproximation comes from an NLP solve that ended with SUCCESS with the integer variables fixed at the rounded MIP solution; if integer variables have integer bounds and the MIP solution is within bounds, it is feasible, integer and better than the value given, whatever the MIP was.", "quantifier": "all problems, MIP and NLP solvers", "why_tests_cant": "universal over solvers and problems", "anchors": ["experimental/Separable/BonHeuristicInnerApproximation.cpp: solution"]}
{"id": "C139", "title": "The Bonmin variant makes chords for every nonlinear row", "statement": "The chords of the Bonmin variant cover the range of the variable of every nonlinear row.", "quantifier": "all orders of rows, columns, bounds, numbers of points", "why_tests_cant": "depends on the order of the rows and on the numbering of variables", "anchors": ["experimental/Separable/BonHeuristicInnerApproximation.cpp: extractInnerApproximation (409-476)"]}
{"id": "C140", "title": "Tangents with indicator variables are valid", "statement": "The tangent of a convex row holds at every point that meets the row where its indicator is 1, and where the indicator and the row's variables are 0.", "quantifier": "all rows, points, bounds, tolerances, indicators", "why_tests_cant": "validity is a statement on all feasible points; the small-coefficient paths are rarely taken", "anchors": ["experimental/Separable/SepaTMINLP2OsiLP.cpp: get_oa, get_oas", "experimental/Separable/BonOuterDescription.cpp: cleanNnz, getMyOuterApproximation"]}
{"id": "C141", "title": "Points of the refined outer approximation cut the ranges in equal parts", "statement": "get_refined_oa makes tangents at N + 2 points that cut the range of every nonlinear variable in N equal parts, within the bounds; at none for N <= 0.", "quantifier": "all bounds, numbers N, variables", "why_tests_cant": "clipping at 10000 is reached for some bounds only", "anchors": ["experimental/Separable/SepaTMINLP2OsiLP.cpp: get_refined_oa"]}
{"id": "C142", "title": "Sampling by function values ends and stays in the range", "statement": "The loops of add_outer_description_function_values and addOuterDescription end for every row, with the number of points asked for, spread over the range.", "quantifier": "all functions, thresholds, numbers of points", "why_tests_cant": "termination is not testable", "anchors": ["experimental/Separable/SepaTMINLP2OsiLP.cpp: add_outer_description_function_values (473-503)", "experimental/Separable/BonOuterDescription.cpp: addOuterDescription (337-361)"]}
{"id": "C143", "title": "Strong branching messages between processes are read as written", "statement": "A strong branching request packed by one LP process (bounds, objective, cutoff, warm start, location, branches) and the answer packed by another are unpacked with every field as packed, and nothing is left over or missing; a request for a different number of columns stops the reader.", "quantifier": "all bounds, branches, answers, following buffer contents", "why_tests_cant": "a message is read in a process other than the writer's; agreement of two field orders is a statement about all messages", "anchors": ["experimental/Bcp/BM_lp_branch.cpp: do_distributed_SB (444-532), process_message (1007-1062)"]}
{"id": "C144", "title": "Pseudo-costs and node data travel unchanged and updates are added up", "statement": "Pseudo-costs sent with a node are those of the tree manager; an update message adds to the total and count of each object and way exactly the changes sent for it; other messages change nothing; the failure counter of a node travels unchanged both ways.", "quantifier": "all pseudo-costs, updates, objects, counters", "why_tests_cant": "sums over arbitrary interleavings of messages from many processes", "anchors": ["experimental/Bcp/BM_pack.cpp: pack_user_data, unpack_user_data", "experimental/Bcp/BM_tm.cpp: process_message, receive_pseudo_cost_update, pack_pseudo_costs", "experimental/Bcp/BM_lp_branch.cpp: unpack_pseudo_costs"]}
{"id": "C145", "title": "A cut sent to another process is the same cut", "statement": "A BB_cut packed and unpacked has the same row and the same bounds.", "quantifier": "all cuts", "why_tests_cant": "the bounds are kept twice; which copy is used shows only in the receiving process", "anchors": ["experimental/Bcp/BB_cut.cpp: pack, BB_cut(BCP_buffer&)", "experimental/Bcp/BM_lp.cpp: cuts_to_rows"]}
{"id": "C146", "title": "Every LP process gets the problem and options of the tree manager", "statement": "The parameters, the text of the .nl file and the option file unpacked by an LP process are those of the tree manager.", "quantifier": "all texts and parameters", "why_tests_cant": "depends on the contents of the file", "anchors": ["experimental/Bcp/BM_pack.cpp: pack_module_data, unpack_module_data", "experimental/Bcp/BM_tm.cpp: readIpopt"]}
{"id": "C147", "title": "Candidates are listed by priority, then usefulness", "statement": "sort_objects lists the infeasible objects and the feasible ones that are not fixed, each once, by priority and then by usefulness.", "quantifier": "all objects, priorities, sort functions", "why_tests_cant": "blocks depend on how feasible and infeasible objects alternate", "anchors": ["experimental/Bcp/BM_lp_branch.cpp: sort_objects"]}
{"id": "C148", "title": "The branches tried are the first ones of the list", "statement": "collect_branch_data writes the down and up branches of the infeasible objects, then the branches of the feasible ones that stay within bounds, cut off after the number asked for; the number counted is the number of branches there are.", "quantifier": "all lists and numbers", "why_tests_cant": "array filling with four early exits", "anchors": ["experimental/Bcp/BM_lp_branch.cpp: collect_branch_data, sort_objects"]}
{"id": "C149", "title": "Each branch is solved from the bounds of the node", "statement": "BM_solve_branches solves every branch with the node's bounds and its own bound, independent of the branches before it, and leaves the bounds of the node.", "quantifier": "all bounds, solvers, lists of branches", "why_tests_cant": "an unrestored bound shows only in later branches", "anchors": ["experimental/Bcp/BM_lp_branch.cpp: BM_solve_branches"]}
{"id": "C150", "title": "Branches are shared out evenly over the processes", "statement": "Every branch is sent to exactly one process or kept; shares differ by at most one; the local process keeps its share.", "quantifier": "all numbers of branches and processes", "why_tests_cant": "needs several processes", "anchors": ["experimental/Bcp/BM_lp_branch.cpp: do_distributed_SB"]}
{"id": "C151", "title": "The number of branches tried respects the parameters", "statement": "At the root at most SBNumBranchesInRoot branches are tried, above the level SBMaxLevel at least SBNumBranchesInTree if there are as many, never more than there are.", "quantifier": "all parameters, levels, numbers", "why_tests_cant": "the compared quantity differs from the documented one only off the leftmost path", "anchors": ["experimental/Bcp/BM_lp_branch.cpp: try_to_branch (784-797)", "experimental/Bcp/BM.hpp: BM_par"]}
{"id": "C152", "title": "Distributed strong branching gives the results of solving one after the other", "statement": "However the branches are shared out and in whatever order the answers arrive, the records after distributed strong branching are those of solving all branches in sequence; each branch's answer is stored under its object and way with the distance to the bound; clearing forgets which branches were evaluated.", "quantifier": "all branches, numbers of processes, arrival orders, solvers", "why_tests_cant": "arrival order is not controllable", "anchors": ["experimental/Bcp/BM_lp_branch.cpp: do_distributed_SB, BM_register_branch_results, clear_SB_results"]}
{"id": "C153", "title": "Strong branching loses no solution", "statement": "A node fathomed by strong branching contains no better solution, and bounds fixed by it cut off none.", "quantifier": "all nodes, solvers that tell the truth, records left by earlier nodes", "why_tests_cant": "wrong fathoming shows as a wrong optimum of some instance", "anchors": ["experimental/Bcp/BM_lp_branch.cpp: process_SB_results, isBranchFathomable"]}
{"id": "C154", "title": "Return code and bounds after strong branching", "statement": "process_SB_results returns -2 exactly when an infeasible object has two branches to be dropped, otherwise -1 without an object exactly when one has one, otherwise an object, with -1 exactly when a feasible object has a branch to be dropped; exactly the columns of dropped branches get the rounded value as bound.", "quantifier": "all records, objects, bounds", "why_tests_cant": "exactness over all combinations", "anchors": ["experimental/Bcp/BM_lp_branch.cpp: process_SB_results (581-652)"]}
{"id": "C155", "title": "The object branched on is the best one", "statement": "The object branched on is the first one with the best weighted sum of degradations among those with answers on both sides; if there is none, the first not evaluated, else the first with one answer, else the last.", "quantifier": "all records, parameters, preferences", "why_tests_cant": "ties and fallbacks are rare", "anchors": ["experimental/Bcp/BM_lp_branch.cpp: process_SB_results (654-741)"]}
{"id": "C156", "title": "Every node is fathomed, changed or branched on", "statement": "After strong branching a node is fathomed, or solved again after its solution has been cut off, or branched on; the run does not stop with an error.", "quantifier": "all records and nodes", "why_tests_cant": "endless resolving or a fatal error arise for particular records only", "anchors": ["experimental/Bcp/BM_lp_branch.cpp: bbBranch (880-908), try_to_branch (757-759)"]}
{"id": "C157", "title": "Lower bounds handed to the children are valid", "statement": "The lower bounds handed over for the two children bound the objective on them.", "quantifier": "all records, nodes, truthful solvers", "why_tests_cant": "an invalid bound prunes silently", "anchors": ["experimental/Bcp/BM_lp_branch.cpp: bbBranch (930-955)"]}
{"id": "C158", "title": "A node is dropped for failures only after the given number of failures in a row, and contains nothing better", "statement": "On the way from the root, a node is abandoned exactly when NumNlpFailureMax solves in a row have failed, a success starting the count again; a dropped node contains no better solution.", "quantifier": "all sequences of successes and failures, all parameter values", "why_tests_cant": "long paths with given failures cannot be produced", "anchors": ["experimental/Bcp/BM_lp_branch.cpp: select_branching_candidates (46-68), set_user_data_for_children", "experimental/Bcp/BM_lp.cpp: initialize_new_search_tree_node", "experimental/Bcp/BM_tm.cpp: create_root"]}
{"id": "C159", "title": "The best node is taken first", "statement": "BMSearchTreeCompareBest orders nodes by quality and then depth, so that best-first search takes a best node.", "quantifier": "all qualities and depths", "why_tests_cant": "orderings are universally quantified; circles need three nodes with close values", "anchors": ["experimental/Bcp/BM_tm.cpp: BMSearchTreeCompareBest"]}
{"id": "C160", "title": "Pseudo-cost updates tell the change per unit", "statement": "The update sent after strong branching has one entry per side evaluated and not given up: the change of the objective (or the substitute for an infeasible side) per unit of change of the variable.", "quantifier": "all records, objects, cutoffs", "why_tests_cant": "flag combinations", "anchors": ["experimental/Bcp/BM_lp_branch.cpp: send_pseudo_cost_update"]}
{"id": "C161", "title": "Bounds fixed by strong branching reach the node", "statement": "After strong branching the bounds of the node in BCP are those of the NLP in every column, for every return code.", "quantifier": "all records, bounds, codes", "why_tests_cant": "a lost fixing costs time only", "anchors": ["experimental/Bcp/BM_lp_branch.cpp: bbBranch (910-927)"]}
{"id": "C162", "title": "The solution written is the solution found", "statement": "The vector written to the AMPL solution file has the value of each variable of the solution, rounded for integer variables, and 0 for the others.", "quantifier": "all solutions, numbers of columns", "why_tests_cant": "negative or tiny values are instance dependent", "anchors": ["experimental/Bcp/BM_tm.cpp: write_AMPL_solution", "experimental/Bcp/BM_lp.cpp: test_feasibility_hybrid"]}
{"id": "C163", "title": "Lower bounds of nodes never get worse", "statement": "compute_lower_bound returns at least the bound of the parent and the value of the node, and a valid bound if both are.", "quantifier": "all values", "why_tests_cant": "an uninitialised value may look right", "anchors": ["experimental/Bcp/BM_lp.cpp: compute_lower_bound"]}
{"id": "C164", "title": "Cut generators are called with their frequency", "statement": "generate_cuts_in_lp calls a generator of frequency k every k nodes, of negative frequency at the root only, and not the last one (the feasibility check).", "quantifier": "all frequencies and random numbers", "why_tests_cant": "random calls", "anchors": ["experimental/Bcp/BM_lp.cpp: generate_cuts_in_lp"]}
{"id": "C165", "title": "Every parameter read has a value", "statement": "Every parameter has the value given in the parameter file under its keyword, or its default.", "quantifier": "all parameter files", "why_tests_cant": "uninitialised values differ from run to run", "anchors": ["experimental/Bcp/BM.cpp: create_keyword_list, set_default_entries", "experimental/Bcp/BM.hpp: BM_par"]}
{"id": "C166", "title": "The solver sees the bounds last set", "statement": "After any history of calls accepted by the NLP problem object, the bounds handed to the solver are, variable by variable and side by side, the last ones set, else the original ones.", "quantifier": "all histories, problems and variables", "why_tests_cant": "histories are unbounded; a stale bound shows up only as a wrong subproblem", "anchors": ["src/Interfaces/BonTMINLP2TNLP.cpp: SetVariablesBounds, SetVariableLowerBound, setxInit, setDualsInit, resetStartingPoint, get_bounds_info, get_starting_point"]}
{"id": "C167", "title": "Strong branching solves exactly the branches and leaves the bounds alone", "statement": "Whenever strong branching returns, the column bounds are those before the call, and the problems solved were, in order, the two sides of the candidates tried, each with the bounds of the node and only its own branch applied; a side is recorded as infeasible only if the solver proved it and as solved only if it was.", "quantifier": "all candidates, bounds, cutoffs and answers of the solver", "why_tests_cant": "candidates and answers are arbitrary; a bound not restored changes later nodes only", "anchors": ["src/Algorithms/Branching/BonChooseVariable.cpp: doStrongBranching"]}
{"id": "C168", "title": "Integers are fixed at the nearest integers", "statement": "fixIntegers fixes exactly the integer columns, each at the integer nearest to the point, leaves the others unchanged, and fails exactly if a value is not integral (debug builds) or too large; the value lies within integral bounds.", "quantifier": "all columns, points and tolerances", "why_tests_cant": "values close to 1/2 or huge do not occur in tests", "anchors": ["src/Algorithms/OaGenerators/BonOaDecBase.cpp: solverManip", "src/Algorithms/BonSolverHelp.cpp: fixIntegers"]}
{"id": "C169", "title": "The fractional dive takes the first variable closest to an allowed rounding and ends", "statement": "The rule gives up exactly if no fractional integer column can be rounded within its bounds; otherwise it takes the first of those with least distance to an allowed rounding, rounded to that side; the dive ends with at most three solves per unit of integer width and returns only integral points within the original bounds that are better than the incumbent.", "quantifier": "all problems, points, tolerances, coins and solvers that respect the bounds", "why_tests_cant": "the sequence of solves depends on the answers of the solver", "anchors": ["src/CbcBonmin/Heuristics/BonHeuristicDiveFractional.cpp: selectVariableToBranch", "src/CbcBonmin/Heuristics/BonHeuristicDiveVectorLength.cpp"]}
{"id": "C170", "title": "MILP rounding never visits the same integers twice", "statement": "If every MILP answer is integral and meets the cuts present, no two answers have the same rounded integers; a solution is returned exactly if the MILP answer is integral and the NLP with these integers fixed is solved with a better value.", "quantifier": "all sequences of answers, tolerances with n tol < 1", "why_tests_cant": "the sequence of answers is unbounded", "anchors": ["src/CbcBonmin/Heuristics/BonMilpRounding.cpp: solution"]}
{"id": "C171", "title": "RINS is called with a frequency between 10 and 10000", "statement": "From construction on, over every history, the frequency stays between 10 and 10000: halved by a success, doubled by a failure, unchanged by calls that do nothing; the neighbourhood fixes exactly the integer columns on which incumbent and node agree, and a search is made exactly if more than a tenth of them is fixed.", "quantifier": "all histories of calls and answers", "why_tests_cant": "the frequency depends on the whole history", "anchors": ["src/CbcBonmin/Heuristics/BonHeuristicRINS.cpp: solution"]}
{"id": "C172", "title": "The branching QP is the second-order model", "statement": "Objective and gradient of the QP are those of the second-order model of the NLP at the point with its multipliers, the displacement is feasible exactly if the shifted point is within the bounds and the linearised constraints hold, structure and derivatives are those of the NLP, and the point and objective reported are those of the model.", "quantifier": "all problems, points, multipliers, index styles and displacements", "why_tests_cant": "agreement at sampled displacements says nothing about the others", "anchors": ["src/Interfaces/BonBranchingTQP.cpp"]}
{"id": "C173", "title": "Two points are told apart exactly by their integer parts", "statement": "The comparison of points answers 'different' exactly if some integer column (with objects: some variable of a branching object or ordered set) differs by more than the tolerance.", "quantifier": "all points, tolerances, columns and objects", "why_tests_cant": "differences near the tolerance", "anchors": ["src/Algorithms/BonSolverHelp.cpp: integerFeasible, isDifferentOnIntegers"]}
{"id": "C174", "title": "Saved cuts are returned once, first violated first", "statement": "Called again at the same node with an LP solution violating saved cuts, the decomposition returns exactly the first violated one and forgets only it; at a new node saved cuts are dropped; otherwise it runs exactly if the LP solution is integral or a local search is wanted; over every sequence of calls no more cuts come from the store than went into it.", "quantifier": "all sequences of calls, cuts and answers", "why_tests_cant": "an endless loop needs a long sequence of calls", "anchors": ["src/Algorithms/OaGenerators/BonOaDecBase.cpp: generateCuts", "src/Algorithms/OaGenerators/BonOaFeasChecker.cpp: performOa"]}
{"id": "C175", "title": "The feasibility checker ends with nothing cheaper left", "statement": "When the checker ends, its last LP is infeasible or not below the cutoff, or its solution is not integral, or it repeats the integers of an NLP solution and the bound fathoms the node; the cutoff never rises and stays at most the value of every NLP solved; if no assignment is proposed again it ends after at most as many passes as there are assignments.", "quantifier": "all oracles for LP, NLP and cuts, all increments not negative", "why_tests_cant": "depends on the answers of three solvers", "anchors": ["src/Algorithms/OaGenerators/BonOaDecBase.cpp: generateCuts", "src/Algorithms/OaGenerators/BonOaFeasChecker.cpp: performOa"]}
{"id": "C176", "title": "NLP relaxations of the hybrid algorithm are solved as the options say", "statement": "The relaxation is solved exactly if the generator is called in the tree in the first pass, not beyond the depth limit, and the random number is below the given rate for the depth; it is solved with the bounds of the LP on the integer columns and its own on the others; its bounds are restored unless the solver failed; the solution is kept exactly if optimal and integral.", "quantifier": "all calls, bounds, options, answers and random numbers", "why_tests_cant": "random calls", "anchors": ["src/Algorithms/OaGenerators/BonOaNlpOptim.cpp: generateCuts"]}
{"id": "C177", "title": "Retries report status, objective, point and multipliers of the best attempt", "statement": "If some attempt of the multi-start resolve succeeds, status, objective, point and multipliers reported are those of the first successful attempt of least objective; otherwise the status before is kept; an exception is raised exactly if an attempt ends with an unrecoverable error.", "quantifier": "all numbers of retries and all outcomes", "why_tests_cant": "outcomes of retries are random", "anchors": ["src/Interfaces/BonOsiTMINLPInterface.cpp: resolveForCost, resolveForRobustness"]}
{"id": "C178", "title": "The shortcut for fixed variables", "statement": "The solver is bypassed exactly if no variable has a range above 1e-5; the point reported is that of the lower bounds with its own objective and row values, reported optimal exactly if every row is within 1e-7 of its bounds.", "quantifier": "all problems and bounds", "why_tests_cant": "ranges and violations near the tolerances", "anchors": ["src/Interfaces/BonTNLPSolver.cpp: zeroDimension"]}
{"id": "C179", "title": "Uniform random starting points cover exactly the bounds within the radius", "statement": "A draw lies within the bounds, finite or not, and within the radius of the feasible value nearest to 0, and every such value can be drawn.", "quantifier": "all bounds, radii not negative and draws", "why_tests_cant": "random draws", "anchors": ["src/Interfaces/BonOsiTMINLPInterface.cpp: randomStartingPoint"]}
{"id": "C180", "title": "The dive tree with assertions conserves open nodes", "statement": "For every history that runs, nodes inside are those pushed less those handed out and those discarded at the cutoff; a history stops exactly at a push of a second unexplored node or a pop from an empty tree; bestNode returns a node below the cutoff whenever there is one; draining hands out every node below the cutoff exactly once.", "quantifier": "all histories, cutoffs, comparisons", "why_tests_cant": "histories are unbounded", "anchors": ["src/CbcBonmin/BonDiver.cpp: CbcDiver"]}
{"id": "C181", "title": "Cbc's search loop on the probed tree loses no node", "statement": "For every sequence of visits as made by Cbc's search loop the probed tree never has both slots full at a push and conserves the open nodes; of two children in hand it follows the one the comparison prefers.", "quantifier": "all sequences of visits", "why_tests_cant": "histories are unbounded", "anchors": ["src/CbcBonmin/BonDiver.cpp: CbcProbedDiver"]}
{"id": "C182", "title": "Counters of failures and infeasibilities are the current runs", "statement": "Along every branch of the tree the two counters are the lengths of the current runs of failures and of infeasible nodes; a branch is followed to its end exactly if the rule allows every node on it; a node not explored because of failures is fathomed or raises an error, as configured, and this is recorded.", "quantifier": "all branches and configurations", "why_tests_cant": "runs of failures are rare", "anchors": ["src/CbcBonmin/BonCbcNlpStrategy.cpp: status", "src/CbcBonmin/BonCbcNode.cpp: BonCbcPartialNodeInfo"]}
{"id": "C183", "title": "Random branching draws uniformly from its list", "statement": "For every random number an entry of the list is chosen and each entry by draws of equal length; the list consists of violated objects and is not empty if there are any.", "quantifier": "all lists, draws, objects", "why_tests_cant": "random draws", "anchors": ["src/Algorithms/Branching/BonRandomChoice.cpp: setupList, chooseVariable"]}
{"id": "C184", "title": "Outer approximation is sound and ends", "statement": "With right solvers, whenever the loop is left the points found are feasible, the upper bound is the best value found or the initial cutoff, every better feasible point is bounded by the bound up to the gap, and a fathomed node has no better point; with finitely many assignments and no limit reached the loop ends after at most one pass per assignment, an assignment with its cuts being excluded by first-order optimality.", "quantifier": "all problems and oracles meeting the contract, all runs", "why_tests_cant": "depends on the answers of three solvers over a whole run", "anchors": ["src/Algorithms/OaGenerators/BonOACutGenerator2.cpp: performOa", "src/Algorithms/OaGenerators/BonOaDecBase.cpp: post_nlp_solve"]}
{"id": "C185", "title": "Differences along a path of filterSQP warm starts lead to its end", "statement": "For warm starts of one array length, basis part and flag, the differences taken along a path exist and applied one after the other to the first lead to the last; a single round trip returns the new warm start exactly under these conditions.", "quantifier": "all paths and warm starts with live arrays", "why_tests_cant": "paths are unbounded", "anchors": ["src/Interfaces/Filter/BonFilterWarmStart.cpp: generateDiff, applyDiff", "src/Interfaces/Ipopt/BonIpoptWarmStart.cpp"]}
{"id": "C186", "title": "Repaired weights of non-empty ordered sets increase strictly", "statement": "For non-empty sets the repair succeeds, touches nothing outside the sets, keeps number and first weight, makes the weights strictly increasing where increments are not absorbed, lowers none and leaves weights far enough apart alone.", "quantifier": "all lists of non-empty sets and weights", "why_tests_cant": "weights beyond 2^20 or equal ones", "anchors": ["src/Interfaces/Ampl/sos_kludge.cpp: sos_kludge"]}
{"id": "C187", "title": "CreateBonminProblem rejects exactly malformed input", "statement": "NULL is returned for exactly the malformed inputs, arrays shorter than announced are the only undefined case, and user scaling is that of the last call.", "quantifier": "all arguments and sequences of scaling calls", "why_tests_cant": "malformed inputs are many", "anchors": ["src/Interfaces/BonStdCInterface.cpp: CreateBonminProblem, BonminSolve"]}
{"id": "C188", "title": "After strong branching the best-scored candidate is chosen", "statement": "When strong branching took place in time and did not find the node infeasible, the object and way chosen are those of the first candidate with the largest score among the trusted and the strong-branched ones, the code says what was found, bounds change only by forced branches; which candidates are strong-branched is as the options say.", "quantifier": "all objects, lists, pseudo-costs without 0/0, answers", "why_tests_cant": "ties and scores are instance dependent", "anchors": ["src/Algorithms/Branching/BonChooseVariable.cpp: chooseVariable"]}
{"id": "C189", "title": "The projection objective of the pump and its derivatives", "statement": "With the projection objective on, the value is the weighted sum of distance and objective, the gradient reported is its derivative and, without the cutoff row, the Hessian its second derivative; what a solver sees is determined by the last switch.", "quantifier": "all problems, targets, weights, points; 1- and 2-norm", "why_tests_cant": "derivatives agree only at all points or not at all", "anchors": ["src/Interfaces/BonTNLP2FPNLP.cpp: dist_to_point, eval_f, eval_grad_f, eval_h"]}
{"id": "C190", "title": "Each single added row describes the intended set", "statement": "The local-branching row holds exactly within the distance asked for (0-1 targets and unit box), the cutoff stored is below the one asked for by at most 1.01e-6 relatively, and with one row added the Jacobian has the entries of the problem followed by the gradient of the row, inside the announced arrays.", "quantifier": "all problems, targets, cutoffs and points", "why_tests_cant": "points near the boundary", "anchors": ["src/Interfaces/BonTNLP2FPNLP.cpp: set_cutoff, get_nlp_info, get_bounds_info, eval_g, eval_jac_g"]}
{"id": "C191", "title": "With Cbc's own rules the search gets all branching information", "statement": "With one of Cbc's own variable selection rules the branching objects are exactly the integer columns in order with the user's priority, direction and pseudo-costs, then the ordered sets with their members, weights, type and priority.", "quantifier": "all problems and branching information", "why_tests_cant": "a lost priority changes the order of the search only", "anchors": ["src/CbcBonmin/BonCbc.cpp: branchAndBound (objects)", "src/Algorithms/BonBabSetupBase.cpp: setPriorities, addSos", "src/Algorithms/BonBonminSetup.cpp"]}
{"id": "C192", "title": "Modes of the dynamic diver only advance and callbacks lose no node", "statement": "Over every history of tree calls and callbacks the mode never goes back, limiting the tree size is final, the mode after a solution or every 1000 nodes is as documented with re-sorting asked for exactly on a change, and callbacks keep all nodes.", "quantifier": "all histories", "why_tests_cant": "histories are unbounded", "anchors": ["src/CbcBonmin/BonDiver.cpp: DiverCompare, CbcDfsDiver::cleanTree", "src/CbcBonmin/BonDiver.hpp: DiverCompare"]}
{"id": "C193", "title": "AMPL's result code tells how the run ended", "statement": "The code is determined by the status and determines it, its class is the documented one, and a code of the class solved comes with a solution, infeasible without, interrupted runs say which.", "quantifier": "all ends of a run", "why_tests_cant": "rare ends of a run", "anchors": ["src/Interfaces/Ampl/BonAmplTMINLP.cpp: finalize_solution, write_solution", "src/CbcBonmin/BonCbc.cpp: branchAndBound"]}
{"id": "C194", "title": "filterSQP objects solve the problem they are asked to", "statement": "In every history of any number of objects and problems each solve evaluates the problem it was asked for and delivers the solution to it; a warm start set is used by the following solves until replaced or disabled; exactly when solving again is defined.", "quantifier": "all interleavings of objects, problems and calls", "why_tests_cant": "global common blocks make interleavings matter", "anchors": ["src/Interfaces/Filter/BonFilterSolver.cpp: OptimizeTNLP, ReOptimizeTNLP, cachedInfo, setWarmStart"]}
{"id": "C195", "title": "Bound multipliers from filterSQP are nonnegative and complementary", "statement": "The two bound multipliers of a variable are the positive and negative part of filterSQP's, each nonnegative, zero away from its bound.", "quantifier": "all multipliers, points and bounds", "why_tests_cant": "signs at degenerate points", "anchors": ["src/Interfaces/Filter/BonFilterSolver.cpp: callOptimizer"]}
{"id": "C196", "title": "The curvature estimate is half the curvature along a projected direction", "statement": "The estimate is the objective plus half the curvature along the orthogonal projection of the direction onto the null space of the constraints taken as active, which is unique; Hessian products are those of the symmetric matrix stored, and over any history the derivatives used are those at the marked solution.", "quantifier": "all problems, directions, right linear solvers and histories", "why_tests_cant": "the linear algebra is exact only as a whole", "anchors": ["src/Interfaces/BonCurvatureEstimator.cpp: ComputeNullSpaceCurvature, PrepareNewMatrixStructure, SolveSystem, Compute_dTHLagd", "src/Algorithms/Branching/BonCurvBranchingSolver.cpp: markHotStart, solveFromHotStart"]}
{"id": "C197", "title": "Solves of the branching QP use the present bounds and enough workspace", "statement": "A repeated solve always works on the present bounds; a solve that comes back never leaves the code for too little workspace, and the fill-in factor only grows by powers of two; cut-off bounds keep every point with entries up to 1e50.", "quantifier": "all problems, states and answers of bqpd", "why_tests_cant": "workspace runs out on large instances only", "anchors": ["src/Interfaces/Filter/BonBqpdSolver.cpp: OptimizeTNLP, ReOptimizeTNLP, cachedInfo::optimize, markHotStart, callOptimizer", "src/Algorithms/Branching/BonQpBranchingSolver.cpp: markHotStart, solveFromHotStart"]}
{"id": "C198", "title": "An NLP interface works on the problem its mode asks for", "statement": "Over every history of models, switches of mode and copies, a solve works on the problem the mode asks for; an empty clone is a new interface; a new model resets exactly its two problems; a copy generates a cut for every nonlinear row.", "quantifier": "all histories", "why_tests_cant": "histories are unbounded", "anchors": ["src/Interfaces/BonOsiTMINLPInterface.cpp: copy constructor, operator=, clone, setModel, initializeJacobianArrays, getOuterApproximation"]}
{"id": "C199", "title": "Settings of the NLP interface are those of the options", "statement": "Reading succeeds exactly if every option read is registered or given; after it every member has the value given with the prefix, else without, else the default; reading again changes nothing.", "quantifier": "all options, prefixes and solvers", "why_tests_cant": "combinations of prefixes", "anchors": ["src/Interfaces/BonOsiTMINLPInterface.cpp: extractInterfaceParams, register_general_options, resolveForCost, resolve, createApplication", "src/CbcBonmin/BonCbc.cpp: CbcCutoffIncrement"]}
{"id": "C200", "title": "Warm started solves start where they should", "statement": "In the modes that warm start, a solve after a warm start was set starts at its point with its multipliers whatever happened before, and the warm start offered after a successful solve is its point and multipliers; the first solve of a new problem starts at the user's point.", "quantifier": "all histories", "why_tests_cant": "histories are unbounded", "anchors": ["src/Interfaces/BonOsiTMINLPInterface.cpp: initialSolve, resolve, resolveForCost, resolveForRobustness, setColSolution, setWarmStart", "src/Interfaces/Ipopt/BonIpoptSolver.cpp: getUsedWarmStart, setWarmStart", "src/Interfaces/BonTMINLP2TNLP.cpp: get_starting_point"]}
{"id": "C201", "title": "Values of variables are carried over to the next subproblem", "statement": "Whatever becomes of the bounds, as long as no variable becomes free the values of the variables still in the problem are those of the iterate; with the same bounds everything is; iterates of the restoration phase are not kept, and the one taken is the first of the last five.", "quantifier": "all bounds and sequences of iterates", "why_tests_cant": "bounds change from node to node", "anchors": ["src/Interfaces/Ipopt/BonIpoptInteriorWarmStarter.cpp: UpdateStoredIterates, WarmStartIterate"]}
{"id": "C202", "title": "Families of cuts are installed once", "statement": "To the generators there, exactly those families are added, in the order of the options, whose frequency is not 0 and of which there is none; no family comes twice, also on a second call.", "quantifier": "all options and generators there before", "why_tests_cant": "combinations of options", "anchors": ["src/Algorithms/BonCbcLpStrategy.cpp: setup, setupCutGenerators, has_cg", "src/Algorithms/BonSubMipSolver.cpp: SubMipSolver", "src/Algorithms/BonBonminSetup.cpp: registerMilpCutGenerators"]}
{"id": "C203", "title": "Tables of options list every option once", "statement": "The table of a kind lists each option of the kind exactly once below its category with the marks of its name, categories once and in order, names in order; the list for AMPL has every option once; validity of an option is what the calls told of it.", "quantifier": "all sequences of registrations and declarations", "why_tests_cant": "the number of options is unbounded", "anchors": ["src/Interfaces/BonRegisteredOptions.hpp: setOptionExtraInfo, optionValidForHybrid, isValidForHybrid, categoriesInfo", "src/Interfaces/BonRegisteredOptions.cpp: writeLatexOptionsTable, chooseOptions, writeBonminOpt", "src/Interfaces/Ampl/BonAmplTMINLP.cpp: fillAmplOptionList", "src/Algorithms/BonBabSetupBase.cpp: mayPrintDoc"]}
{"id": "C204", "title": "Senses, right sides and ranges describe rows", "statement": "What is computed for a row allows exactly the values between its bounds; exactly the rows at positions listed are removed; an exception is thrown exactly if cuts are added to or removed from a problem that cannot change, and then the rows stay.", "quantifier": "all rows, positions and calls", "why_tests_cant": "sequences of calls are unbounded", "anchors": ["src/Interfaces/BonOsiTMINLPInterface.cpp: extractSenseRhsAndRange, getRowSense, getRightHandSide, getRowRange, freeCachedRowRim, applyRowCuts, setModel, use", "src/Interfaces/BonOsiTMINLPInterface.hpp: applyCuts, applyRowCuts, applyRowCut, deleteRows"]}
{"id": "C205", "title": "Every branching object is passed on to the decompositions, in order", "statement": "The objects given are the conversions of the objects of the model in order, and there is an exception exactly if one is not supported.", "quantifier": "all lists of objects", "why_tests_cant": "unsupported objects are rare", "anchors": ["src/CbcBonmin/BonCbc.cpp: Bab::branchAndBound, Bab::~Bab"]}
{"id": "C206", "title": "Options of local searches: the user's word, else the default", "statement": "After creation of a heuristic each option is what the user said with or without prefix, else the default of the heuristic; options of other prefixes do not change; creating it again changes nothing.", "quantifier": "all options, prefixes, orders of creation", "why_tests_cant": "combinations of prefixes", "anchors": ["src/CbcBonmin/Heuristics/BonLocalSolverBasedHeuristic.cpp: changeIfNotSet, setupDefaults, Initialize", "src/CbcBonmin/Heuristics/BonPumpForMinlp.cpp: setupDefaults"]}
{"id": "C207", "title": "What the user sets reaches the search", "statement": "For every algorithm limits, gaps, cutoff, tolerances and methods set by the user are those Cbc gets; every parameter is the value given under the prefix, else without, else the default; names and enumerations agree.", "quantifier": "all options and algorithms", "why_tests_cant": "combinations of options", "anchors": ["src/Algorithms/BonBabSetupBase.cpp: gatherParametersValues, defaultIntParam_, defaultDoubleParam_, registerAllOptions", "src/Algorithms/BonBabSetupBase.hpp: IntParameter, DoubleParameter", "src/Algorithms/BonBonminSetup.cpp: initializeBBB, initializeBHyb"]}
{"id": "C208", "title": "For each option the first source read counts", "statement": "Of several sources read one after the other the first setting of a name counts unless one was entered before so that it cannot be overwritten; bonmin.opt is read exactly if nothing was read before; options set by the program yield to a file read later unless protected and never replace a value read.", "quantifier": "all sequences of sources and settings", "why_tests_cant": "combinations of sources", "anchors": ["src/Algorithms/BonBabSetupBase.cpp: readOptionsFile, readOptionsString, readOptionsStream, initializeOptionsAndJournalist, use", "src/Algorithms/BonBabSetupBase.hpp: readOptionsFile", "src/Algorithms/Ampl/BonAmplSetup.cpp: initialize"]}
{"id": "C209", "title": "A copy with appended cuts has the same constraints and Hessian", "statement": "A copy of a problem with appended cuts has the same constraint values everywhere, structure of the Jacobian, reports of linearity and Hessian.", "quantifier": "all problems, cuts and orders found by sorting", "why_tests_cant": "values agree at all points or not", "anchors": ["src/Algorithms/QuadCuts/BonTMINLP2Quad.cpp: TMINLP2TNLPQuadCuts (copy)", "src/Algorithms/QuadCuts/BonQuadRow.cpp: QuadRow (copy)"]}
{"id": "C210", "title": "N-way objects recognise satisfied points and branches cut off others", "statement": "The infeasibility is 0 exactly if every member is within the tolerance of a bound, otherwise the largest distance, at most 1/2 for binaries; fixing works exactly if the object is satisfied and fixes every member at the bound it is close to; every branch excludes a point of which a listed member is off its bounds.", "quantifier": "all objects, points, bounds and tolerances", "why_tests_cant": "values near the tolerance", "anchors": ["experimental/RobotBonmin/BonNWayObject.cpp: infeasibility, feasibleRegion, createBranch, branch"]}
{"id": "C211", "title": "One n-way object per ordered set", "statement": "There is one object per set in order, with the variables of the set as members, no recorded bounds, the settings given, and the priority of the set if it has one and else 1; none if sets are disabled.", "quantifier": "all sets, priorities and settings", "why_tests_cant": "sets differ from model to model", "anchors": ["experimental/RobotBonmin/RobotSetup.cpp: addNWays"]}
{"id": "C212", "title": "The list of n-way candidates has every unsatisfied object once", "statement": "The list has every unsatisfied object exactly once and nothing else, the number returned is theirs, no assertion fails; those offered for strong branching come first, best value first.", "quantifier": "all objects, priorities and values", "why_tests_cant": "many objects", "anchors": ["experimental/RobotBonmin/BonNWayChoose.cpp: setupList"]}
{"id": "C213", "title": "The usefulness of an n-way object is the sum of its estimated changes", "statement": "It is the sum (product for geometric means) over the free members of the larger of pseudo-cost times distance and recorded bound less objective, but at most multiplied cutoff less objective.", "quantifier": "all rows, points and cutoffs", "why_tests_cant": "many terms", "anchors": ["experimental/RobotBonmin/BonNWayChoose.cpp: compute_usefulness"]}
{"id": "C214", "title": "Strong branching lists exactly the objects that matter", "statement": "If no object is declared infeasible, the lists are exactly the infeasible objects and the feasible ones not fixed, each once; feasible ones, and with priorities disregarded infeasible ones, are sorted by usefulness.", "quantifier": "all objects and orders found by sorting", "why_tests_cant": "many objects", "anchors": ["experimental/Bcp/BM_lp_branch.cpp: sort_objects"]}
{"id": "C215", "title": "Branches sent to other processes cover the list evenly", "statement": "Every branch is sent to exactly one process or kept, in order; each process is sent one part with the location of its first branch; parts differ by at most one.", "quantifier": "all numbers of branches and processes", "why_tests_cant": "numbers of processes", "anchors": ["experimental/Bcp/BM_lp_branch.cpp: do_distributed_SB"]}
{"id": "C216", "title": "Return code and bounds after strong branching follow the records", "statement": "From complete records the return code is -2 exactly if an infeasible object has two branches to be dropped, otherwise -1 without an object exactly if one has one, otherwise an object is given; exactly the columns of dropped branches get the rounded value as bound.", "quantifier": "all complete records and bounds", "why_tests_cant": "combinations of answers", "anchors": ["experimental/Bcp/BM_lp_branch.cpp: process_SB_results (581-652)"]}
{"id": "C217", "title": "The object branched on by the parallel program", "statement": "Among candidates with answers on both sides the first with the preferred weighted sum is taken, up first unless down degrades less or a way is preferred; without any, the first not evaluated, else the first with a side not abandoned, else the last.", "quantifier": "all records below COIN_DBL_MAX", "why_tests_cant": "combinations of answers", "anchors": ["experimental/Bcp/BM_lp_branch.cpp: process_SB_results (654-741)"]}
{"id": "C218", "title": "A node of the parallel program is dropped exactly after the given number of failures in a row", "statement": "On the way from the root a solve drops its node exactly if as many solves in a row have failed as the parameter says (at least one); a success starts the count again.", "quantifier": "all paths and limits", "why_tests_cant": "runs of failures are rare", "anchors": ["experimental/Bcp/BM_lp_branch.cpp: select_branching_candidates (46-68), set_user_data_for_children", "experimental/Bcp/BM_lp.cpp: initialize_new_search_tree_node", "experimental/Bcp/BM_tm.cpp: create_root"]}
{"id": "C219", "title": "Pseudo-cost updates have one entry per side evaluated", "statement": "The update sent after strong branching has exactly one entry for every side evaluated that was not given up, with the change, or its substitute, per unit of change of the variable.", "quantifier": "all records", "why_tests_cant": "combinations of answers", "anchors": ["experimental/Bcp/BM_lp_branch.cpp: send_pseudo_cost_update"]}
{"id": "C220", "title": "The non-empty rows and columns of a matrix are known after any history", "statement": "At any time numNonEmptyRows (numNonEmptyCols) returns the number of rows (columns) occurring among the entries, and the list has exactly these, increasing, each with the position where it starts in the ordering.", "quantifier": "all histories of copies, assignments, writes, changes of size and queries; all entries", "why_tests_cant": "stale orderings need a history of changes of size and queries", "anchors": ["src/Algorithms/QuadCuts/BonTMatrix.hpp: TMat", "src/Algorithms/QuadCuts/BonTMatrix.cpp"]}
{"id": "C221", "title": "A copied or assigned matrix has the entries of the original", "statement": "The copy constructor and the assignment are defined for every matrix obtained by the public functions and give a matrix with the same entries.", "quantifier": "all histories, all entries", "why_tests_cant": "reading beyond an array need not fail", "anchors": ["src/Algorithms/QuadCuts/BonTMatrix.hpp: TMat", "src/Algorithms/QuadCuts/BonTMatrix.cpp"]}
{"id": "C222", "title": "A change of size keeps the entries and the memory", "statement": "resize keeps the entries that have a place in the new size and loses no memory.", "quantifier": "all histories, all sizes", "why_tests_cant": "leaks are not observable", "anchors": ["src/Algorithms/QuadCuts/BonTMatrix.hpp: TMat", "src/Algorithms/QuadCuts/BonTMatrix.cpp"]}
{"id": "C223", "title": "Removing duplicates leaves a usable matrix", "statement": "removeDuplicates is defined and leaves a matrix with the merged entries, whatever its history.", "quantifier": "all histories, all entries", "why_tests_cant": "depends on how the matrix was built", "anchors": ["src/Algorithms/QuadCuts/BonTMatrix.hpp: TMat", "src/Algorithms/QuadCuts/BonTMatrix.cpp"]}
{"id": "C224", "title": "Every discrete condition gives a branching object of the parallel program", "statement": "Every integer variable and every special ordered set becomes exactly one branching object of each node process, with its bounds and priority, and the pseudo-costs of the master have one entry per object.", "quantifier": "all problems", "why_tests_cant": "special ordered sets with priorities are rare", "anchors": ["experimental/Bcp/BM_pack.cpp: unpack_module_data (102-136)", "experimental/Bcp/BM_tm.cpp: initialize_core (121-132)"]}
{"id": "C225", "title": "Objects are considered in the order of their priorities", "statement": "The list objInd_ has each object once, objects of smaller priority value first.", "quantifier": "all objects and priorities", "why_tests_cant": "ties may be ordered anyhow", "anchors": ["experimental/Bcp/BM_pack.cpp: unpack_module_data (146-155)"]}
{"id": "C226", "title": "The core of the problem given to BCP is the problem's", "statement": "initialize_core gives one variable per column with type, objective and bounds, and the rows of the relaxation (none with branch and bound).", "quantifier": "all problems, both algorithms", "why_tests_cant": "types are not printed", "anchors": ["experimental/Bcp/BM_tm.cpp: initialize_core (86-119)"]}
{"id": "C227", "title": "BCP and bonmin use the same tolerances and cutoff", "statement": "After the set-up BCP has the integer tolerance and the required improvement of bonmin, a difference is reported, and the cutoff used for branching is the best value less the required improvement.", "quantifier": "all parameter values", "why_tests_cant": "effects of the size of the tolerance", "anchors": ["experimental/Bcp/BM_pack.cpp: unpack_module_data (58-87)", "experimental/Bcp/BM_lp_branch.cpp: select_branching_candidates (71)"]}
{"id": "C228", "title": "An optimisation never fails because Ipopt was last used for another problem", "statement": "Solving a problem with the Ipopt interface does not throw because of what was solved before: after any sequence of initialisations, warm start settings and solves the next solve succeeds in calling Ipopt.", "quantifier": "all histories of calls, all problems", "why_tests_cant": "depends on the order of calls of different problems", "anchors": ["src/Interfaces/Ipopt/BonIpoptSolver.cpp: OptimizeTNLP, ReOptimizeTNLP (134-220)", "src/Interfaces/BonOsiTMINLPInterface.cpp: initialSolve, resolve (2779-2900)"]}
{"id": "C229", "title": "Options of Ipopt given by the user are kept", "statement": "After Initialize each Ipopt option has the value given by the user; the remaining ones have the documented defaults for mixed-integer problems, and the print level restored later is the user's or 1.", "quantifier": "all option lists", "why_tests_cant": "combinations of options", "anchors": ["src/Interfaces/Ipopt/BonIpoptSolver.cpp: setMinlpDefaults (264-297), setOutputToDefault (433-437)"]}
{"id": "C230", "title": "Changes of the output do not disturb the options of Ipopt", "statement": "After Initialize any sequence of forceSolverOutput, setOutputToDefault, enableWarmStart and disableWarmStart changes no option but print_level and warm_start_init_point, and setOutputToDefault then restores the print level of the initialisation.", "quantifier": "all option lists, all sequences", "why_tests_cant": "unbounded sequences", "anchors": ["src/Interfaces/Ipopt/BonIpoptSolver.cpp: enableWarmStart to forceSolverOutput (418-444)"]}
{"id": "C231", "title": "Another NLP solver steps in after an error", "statement": "If the NLP solver fails with an error that can be recovered from, the further solvers are tried in order until one succeeds on the same problem, whose status and solution are reported; errors that cannot be recovered from are thrown.", "quantifier": "all solvers, outcomes and lists of further solvers, problem and feasibility problem", "why_tests_cant": "a failing solver cannot be provoked by a test", "anchors": ["src/Interfaces/BonOsiTMINLPInterface.cpp: solveAndCheckErrors (2607-2682)", "src/Interfaces/BonTNLPSolver.hpp: isError (202-204)"]}
{"id": "C232", "title": "Comparing NLP solvers does not change results and tells real differences", "statement": "With nlp_solver = all the result is that of the first solver, and a disagreement is reported exactly if another solver solving the same problem without error has a different status or a different optimal value.", "quantifier": "all solvers and outcomes", "why_tests_cant": "solvers mostly agree", "anchors": ["src/Interfaces/BonOsiTMINLPInterface.cpp: solveAndCheckErrors (2645-2672, 2754-2764)"]}
{"id": "C233", "title": "The counters of solves are the totals", "statement": "nCallOptimizeTNLP, totalNlpSolveTime and totalIterations are the number of NLP solves made, the time spent in them and the iterations taken.", "quantifier": "all sequences of solves, feasibility problems and failures", "why_tests_cant": "needs failures", "anchors": ["src/Interfaces/BonOsiTMINLPInterface.cpp: solveAndCheckErrors (2607-2695), solveFeasibilityProblem (2315-2362)"]}
{"id": "C234", "title": "What the dive-MIP heuristics return is an integral point within the bounds, better than the incumbent", "statement": "A solution returned by the dive-MIP heuristics has integers in all integer columns, respects the bounds, has the objective value reported, better than that of the incumbent; it is the NLP solution with the integers fixed where the dive and the MIP left them.", "quantifier": "all problems, solvers, selection rules, MIP answers and points", "why_tests_cant": "the path of the dive depends on all answers of the solvers", "anchors": ["src/CbcBonmin/Heuristics/BonHeuristicDiveMIP.cpp: solution (94-489)"]}
{"id": "C235", "title": "The dive-MIP heuristics end", "statement": "The dive ends after at most as many NLP solves as the total width of the nonlinear integer columns, plus one.", "quantifier": "all problems with bounded integer columns, all solvers respecting bounds, all selection rules that select fractional columns", "why_tests_cant": "termination is no finite observation", "anchors": ["src/CbcBonmin/Heuristics/BonHeuristicDiveMIP.cpp: solution (222-261, 434-461)"]}
{"id": "C236", "title": "When the MILP rounding heuristic runs, and what it returns", "statement": "The MILP rounding heuristic runs exactly in the first pass of nodes that are at depth two or less or whose number is a multiple of twenty; it returns exactly the NLP solutions, better than the incumbent, found with the integer columns fixed at the rounded values of an integral answer of its MILP.", "quantifier": "all problems, solvers, nodes and sequences of calls", "why_tests_cant": "the state of the object and the answers of both solvers decide", "anchors": ["src/CbcBonmin/Heuristics/BonMilpRounding.cpp: solution (84-354)"]}
{"id": "C237", "title": "The MILP of the rounding heuristic asks for the integer assignment nearest to the relaxation", "statement": "The MILP has the bounds of the node, the linear rows and the cuts kept, and its objective orders the integer assignments by their distance to the solution of the relaxation.", "quantifier": "all problems, nodes and points", "why_tests_cant": "infinitely many points", "anchors": ["src/CbcBonmin/Heuristics/BonMilpRounding.cpp: solution (125-243)"]}
{"id": "C238", "title": "The MILP rounding heuristic does not look at an assignment twice", "statement": "Over the whole run, no two MILP answers of the heuristic have the same values in the integer columns.", "quantifier": "all problems, solvers and sequences of calls", "why_tests_cant": "arbitrary sequences of calls", "anchors": ["src/CbcBonmin/Heuristics/BonMilpRounding.cpp: copies (46-68), solution (243, 298-325)"]}
{"id": "C239", "title": "The MILP rounding heuristic goes on as long as there are assignments it has not looked at", "statement": "An integer assignment not yet looked at remains feasible for the cuts of the heuristic.", "quantifier": "all 0-1 problems, solvers and sequences of calls", "why_tests_cant": "arbitrary sequences of calls", "anchors": ["src/CbcBonmin/Heuristics/BonMilpRounding.cpp: solution (298-325)"]}
{"id": "C240", "title": "The exit status of the programs tells whether the run completed", "statement": "A program ends with status 0 exactly when reading the problem and solving it completed without an exception.", "quantifier": "all runs and exceptions", "why_tests_cant": "the exceptions depend on the problem and the solvers", "anchors": ["src/Apps/BonMin.cpp: main (28-97)", "src/Apps/BonNodeSolver.cpp: main (33-112)"]}
{"id": "C241", "title": "Which errors the programs report, and when they write the files of a failed problem", "statement": "A failed NLP leads to the files that describe the failed problem, every other error to a message; no run is undefined.", "quantifier": "all runs and exceptions", "why_tests_cant": "the exceptions depend on the problem and the solvers", "anchors": ["src/Apps/BonMin.cpp: main (28-97)", "src/Apps/BonNodeSolver.cpp: main (33-112)"]}
{"id": "C242", "title": "Copies of a warm start of the BQPD solver hold what the original holds", "statement": "A warm start of the BQPD solver can be copied at any time, and the copy equals it.", "quantifier": "all warm starts and sequences of copies and flushes", "why_tests_cant": "arbitrary sequences of operations; reading through a null pointer may go unnoticed", "anchors": ["src/Interfaces/Filter/BonBqpdWarmStart.cpp: constructors (16-59), flushPoint (84-91)"]}
{"id": "C243", "title": "Nodes that are not solved but branched on have a variable to branch on", "statement": "A node whose NLP was not solved and that is to be branched on is left with an integer variable at a fractional value within its bounds; fixed and continuous variables keep their values, and no solution cuts the node off. A node to be taken as infeasible is cut off.", "quantifier": "all problems, bounds, options, sequences of failures and rounding functions", "why_tests_cant": "depends on failures of the NLP solver and on bounds at nodes deep in the tree", "anchors": ["src/Interfaces/BonOsiTMINLPInterface.hpp: forceInfeasible, forceBranchable (281-291)", "src/Interfaces/BonTMINLP2TNLP.cpp: force_fractionnal_sol (617-629)", "src/CbcBonmin/BonCbcNlpStrategy.cpp: status (115-153)"]}
{"id": "C244", "title": "When the Ipopt interface fails before calling Ipopt", "statement": "After any sequence of initialisations, warm start settings and solves, the next solve throws instead of calling Ipopt exactly if the problem has free variables, something was solved since the last initialisation, the call is a re-optimisation or warm starts are enabled, and the problem solved last is another one. On a copy no solve throws. The statistics reported afterwards are those of Ipopt, or 0 if all variables were fixed.", "quantifier": "all sequences of operations", "why_tests_cant": "arbitrary sequences of operations", "anchors": ["src/Interfaces/Ipopt/BonIpoptSolver.cpp: OptimizeTNLP, ReOptimizeTNLP (135-225)"]}
{"id": "C245", "title": "Comparing NLP solvers leaves the result of the first", "statement": "With nlp_solver = all, if the first solver ends without error, status, solution and problem reported are those of the first solver, and all other solvers are called once. A call throws exactly if the error of the first solver cannot be recovered from. A problem is written out as suspect exactly if solvers disagree or, if the option is set, the iterations exceed it or the solve was abandoned.", "quantifier": "all solvers and problems", "why_tests_cant": "depends on the answers of several solvers", "anchors": ["src/Interfaces/BonOsiTMINLPInterface.cpp: solveAndCheckErrors (2607-2766)"]}
{"id": "C246", "title": "What the MILP rounding heuristic keeps between calls", "statement": "After any sequence of calls on one object the cuts are those it had before followed by one for every MILP answer, in order; the MILP solved has the bounds of the node, all these cuts, the integer columns and the bounds of all linear rows of the problem; with 0-1 columns and correct MIP answers the assignments that remain are those in which, for every answer so far, some column that was 1 is 0.", "quantifier": "all problems, oracles and sequences of calls", "why_tests_cant": "depends on the history of calls and the answers of solvers", "anchors": ["src/CbcBonmin/Heuristics/BonMilpRounding.cpp: solution (84-351)"]}
{"id": "C247", "title": "How bonmin and the node solver end", "statement": "bonmin exits exactly if no exception of an unknown class is thrown, then with status 0; it writes the files of the failed problem exactly if the exception is an unsolved NLP; its behaviour is undefined exactly if it is called without an argument and an unknown exception is thrown. The node solver's is undefined exactly if it is called without an argument, and otherwise it is terminated exactly by an exception while reading the problem or one that is neither a SimpleError nor a CoinError while solving.", "quantifier": "all runs and exceptions", "why_tests_cant": "the exceptions depend on the problem and the solvers", "anchors": ["src/Apps/BonMin.cpp: main (28-97)", "src/Apps/BonNodeSolver.cpp: main (33-112)"]}
{"id": "C248", "title": "When a warm start of the BQPD solver can be copied", "statement": "A sequence of copies and flushes of a complete warm start is undefined exactly if its workspace is not empty and a copy follows a flush; otherwise the result is the original, without its point and workspace if it was flushed. Any number of copies equals the original.", "quantifier": "all warm starts and sequences", "why_tests_cant": "arbitrary sequences of operations", "anchors": ["src/Interfaces/Filter/BonBqpdWarmStart.cpp: constructors (16-59), flushPoint (84-91)"]}
{"id": "C249", "title": "Where a solution of the dive-MIP heuristics comes from", "statement": "If a dive-MIP heuristic reports a solution, its value is the objective there and better than the incumbent; it is the answer of the NLP solver with the integer columns fixed at a point that is integral up to the tolerance, takes its nonlinear columns from the end of the dive, and its linear ones from there too or from the MIP.", "quantifier": "all problems, oracles, dives and bounds", "why_tests_cant": "depends on the answers of solvers", "anchors": ["src/CbcBonmin/Heuristics/BonHeuristicDiveMIP.cpp: solution (94-489)"]}
{"id": "C250", "title": "Nodes taken as infeasible are cut off, and forcing twice changes nothing more", "statement": "A node that is to be taken as infeasible keeps its solution and is not better than any cutoff up to 1e200; forcing a node to be branchable twice has the effect of doing so once.", "quantifier": "all nodes and rounding functions", "why_tests_cant": "depends on failures of the NLP solver", "anchors": ["src/Interfaces/BonOsiTMINLPInterface.hpp: forceInfeasible, forceBranchable (281-291)", "src/Interfaces/BonTMINLP2TNLP.cpp: force_fractionnal_sol (617-629)"]}
{"id": "C251", "title": "When an interface is initialised its NLP solver is the one asked for, ready, with its options read", "statement": "Whenever initialize ends normally, the NLP solver of the interface is the one nlp_solver asks for (with all, all that are available), it has been initialised, and the options given have been read; otherwise the error tells what is wrong and can be repeated.", "quantifier": "all sequences of calls, choices, builds with or without filterSQP and answers of the solvers", "why_tests_cant": "depends on the build and on errors of earlier calls", "anchors": ["src/Interfaces/BonOsiTMINLPInterface.cpp: initialize, setSolver, createApplication, setModel (431-515)"]}
{"id": "C252", "title": "Objective coefficients are the gradient at the current solution", "statement": "getObjCoefficients returns the gradient of the objective at the solution that getColSolution returns, and arrays returned by queries stay valid while the problem does not change; reduced costs are those of the solution.", "quantifier": "all problems, gradients and sequences of calls", "why_tests_cant": "depends on the history of calls", "anchors": ["src/Interfaces/BonOsiTMINLPInterface.cpp: getObjCoefficients (3097-3116), getReducedCost (1283-1292)", "src/Interfaces/BonTMINLP2TNLP.cpp: eval_grad_f (418-423)"]}
{"id": "C253", "title": "With a known solution, an exception tells where it is lost", "statement": "When a known solution is given for debugging, a solve or a strong branching step throws exactly at nodes that contain this solution and at which the solver loses it; otherwise the run is as without it.", "quantifier": "all known solutions, nodes, candidates and answers of the solver", "why_tests_cant": "needs a run in which a solver is wrong at a node deep in the tree", "anchors": ["src/Interfaces/BonOsiTMINLPInterface.cpp: solveAndCheckErrors (2621-2630)", "src/Algorithms/Branching/BonChooseVariable.cpp: doStrongBranching (845-848, 892-895)"]}
{"id": "C254", "title": "The first initialisation of an interface", "statement": "The first call of initialize ends normally exactly if the solver asked for by nlp_solver (filterSQP for all) is part of the program and can be initialised, and then this solver, the other available ones for comparison, the options read and the problem are as asked; otherwise the error tells whether the solver is missing or broken, and problem and parameters are unchanged. In a sequence of calls everything but the problem is decided by the first one that asks for an available solver.", "quantifier": "all sequences of calls, choices and answers of the solvers", "why_tests_cant": "depends on the build and on errors of earlier calls", "anchors": ["src/Interfaces/BonOsiTMINLPInterface.cpp: initialize, createApplication (431-498)"]}
{"id": "C255", "title": "Objective coefficients are the gradient at the last point computed", "statement": "After any sequence of calls with at least one solve and column, getObjCoefficients returns the gradient at the point of the last solve, in an array that lives exactly until its next call; for linear objectives the coefficients are always right; the array of reduced costs holds one zero per column and stays.", "quantifier": "all problems, gradients and sequences of calls", "why_tests_cant": "depends on the history of calls", "anchors": ["src/Interfaces/BonOsiTMINLPInterface.cpp: getObjCoefficients (3097-3116), getReducedCost (1283-1292)"]}
{"id": "C256", "title": "A known solution that is lost is reported, and debugging changes nothing else", "statement": "A solve throws exactly if the known integer values are within the bounds (for whole bounds: exactly) and the solver does not prove optimality with a value at most the known one; solves that lose a known point within the bounds do. Strong branching that does not throw gives what it gives without debugging, and it throws only at a side found infeasible while the known values are within the bounds.", "quantifier": "all known solutions, nodes, candidates and answers of the solver", "why_tests_cant": "needs a run in which a solver is wrong", "anchors": ["src/Interfaces/BonOsiTMINLPInterface.cpp: solveAndCheckErrors (2621-2630)", "src/Algorithms/Branching/BonChooseVariable.cpp: doStrongBranching (845-848, 892-895)"]}
{"id": "C257", "title": "What branch-and-bound reports at its end is right", "statement": "When the search of B-BB ends as complete, the solution it reports is feasible and integral within the tolerance and no solution of the problem is better by more than the gaps asked for; without solution the problem has none below the cutoff. This holds for every node selection, chooser and failure option as long as every NLP that is answered is solved to global optimality.", "quantifier": "all problems over bounded integer variables, all NLP solvers that are right whenever they answer, all orders, choosers, trees and options", "why_tests_cant": "a statement about whole runs on all problems, with failures at any node", "anchors": ["src/CbcBonmin/BonCbcNlpStrategy.cpp: status (78-155)", "src/CbcBonmin/BonDiver.cpp: CbcDiver (24-166)", "src/CbcBonmin/BonCbc.cpp: Bab::branchAndBound (300-316, 537-689)", "src/Interfaces/BonOsiTMINLPInterface.hpp: forceBranchable (287-291)"]}
{"id": "C258", "title": "Branch-and-bound without failures is finite and right", "statement": "When the NLP solver answers at every node, with Cbc's heap or the dive tree: no assertion fails and no exception is thrown, at most 2(2^W-1) nodes are visited (W the sum of the widths of the integer variables), a completed search is reported as optimal only with a feasible point, integral within the tolerance, that no solution beats by more than the larger of cutoff decrement and gap, otherwise as infeasible, and then no solution is below the cutoff; a search stopped at a limit is reported as neither, and no solution is below its bound and its best value less the decrement.", "quantifier": "all problems over bounded integer variables, orders, choosers and options", "why_tests_cant": "a statement about whole runs on all problems", "anchors": ["src/CbcBonmin/BonCbcNlpStrategy.cpp: status (78-155)", "src/CbcBonmin/BonDiver.cpp: CbcDiver (24-166)", "src/CbcBonmin/BonCbc.cpp: Bab::branchAndBound (537-689)"]}
{"id": "C259", "title": "What branch-and-cut with the feasibility checker (B-QG, and B-Hyb and B-Ecp with more cuts) finds is optimal", "statement": "When the search of B-QG ends as complete on a problem for which all cuts are valid, its best solution is feasible and integral and no solution of the problem is better by more than the cutoff decrement, the cutoff increment of the checker or the gap; without best solution the problem has none below the cutoff.", "quantifier": "all problems over bounded integer variables, all LP and NLP solvers that are right, all valid cuts, orders, choosers, trees and options", "why_tests_cant": "a statement about whole runs on all problems", "anchors": ["src/Algorithms/OaGenerators/BonOaFeasChecker.cpp: performOa (37-135)", "src/Algorithms/OaGenerators/BonOaDecBase.cpp: generateCuts (236-345), post_nlp_solve (357-400)", "src/Algorithms/OaGenerators/BonDummyHeuristic.cpp: solution (38-50)", "src/CbcBonmin/BonDiver.cpp: CbcDiver (24-166)"]}
{"id": "C260", "title": "B-QG is finite and optimal when the LP keeps away from treated integers", "statement": "If all cuts are valid, and below the cutoff the LP neither proposes treated whole values again nor comes within 1/10 of the integers of a treated NLP, then with Cbc's heap or the dive tree, zero decrement, increment and gaps: every call of the checker ends after at most as many passes as the root box has whole points, the search after at most 2(2^W-1) nodes (W the sum of the widths of the integer variables), with an optimal solution, or with none and no solution is below the cutoff.", "quantifier": "all problems over bounded integer variables, right solvers, valid cuts of both kinds, orders, choosers and trees", "why_tests_cant": "a statement about whole runs on all problems", "anchors": ["src/Algorithms/OaGenerators/BonOaFeasChecker.cpp: performOa (37-135)", "src/Algorithms/OaGenerators/BonOaDecBase.cpp: post_nlp_solve (357-400)", "src/CbcBonmin/BonDiver.cpp: CbcDiver (24-166)"]}
{"id": "C261", "title": "A row taken from a quadratic cut evaluates the cut's own function", "statement": "If the quadratic part of a cut can be brought to upper triangular storage, then the row built from the cut, whatever sorted order is used for its row and column structures, evaluates at every point to constant plus linear part plus quadratic form of the cut, with off-diagonal entries counted as stored; a row given an entry below the diagonal is refused.", "quantifier": "all cuts, all storage types, all orderings of equal entries, all points", "why_tests_cant": "tests try a few matrices, not every storage order and every tie of the sort", "anchors": ["src/Algorithms/QuadCuts/BonQuadRow.cpp: QuadRow::initialize, eval_f, internal_eval_grad"]}
{"id": "C262", "title": "Making a matrix upper triangular keeps its form whenever it returns", "statement": "Whenever make_upper_triangular returns, all entries are on or above the diagonal and the symmetric bilinear form of the matrix is the same for all pairs of vectors. It always returns for an upper or lower triangular matrix declared as such, and then keeps the number of entries.", "quantifier": "all matrices and storage types, all pairs of vectors", "why_tests_cant": "an equality of forms over all vectors is not a finite set of values", "anchors": ["src/Algorithms/QuadCuts/BonTMatrix.cpp: make_upper_triangular, removeDuplicates, make_lower_to_be_upper, make_full_upper_triangular"]}
{"id": "C263", "title": "Derivatives answered by the reformulated problem agree with its functions", "statement": "For a problem whose answers are consistent, the problem with its objective moved to a constraint answers consistent queries: the Jacobian row of the new constraint times a direction is the directional derivative of the objective minus that of the new variable, the other rows act as before, the gradient asked for one constraint is that constraint's row of the Jacobian, and the Hessian of the Lagrangian is the original one with the objective weighted by the multiplier of the new constraint.", "quantifier": "all problems with consistent sizes, all points, directions and multipliers, both index styles", "why_tests_cant": "the relation is between functions at all points, and a test sees one model in one index style", "anchors": ["src/Algorithms/QuadCuts/BonTMINLPLinObj.cpp: eval_jac_g, eval_h, eval_grad_gi, get_scaling_parameters"]}
{"id": "C264", "title": "On binary variables, disjunctive strengthening keeps all feasible points", "statement": "If the bounds found by the auxiliary problems are true bounds of the cut's left hand side, all integer variables take the values 0 or 1 and the point separated has its integer variables in [0,1), then every feasible point satisfying the cut satisfies the strengthened cut too. If the auxiliary problem fails, the cut is returned unchanged.", "quantifier": "all cuts, boxes, points to be separated and feasible points", "why_tests_cant": "a lost feasible point shows only if a test happens to probe that point", "anchors": ["src/Interfaces/BonCutStrengthener.cpp: HandleOneCut"]}
{"id": "C265", "title": "A solve that returns normally reports what the NLP solver answered", "statement": "Whenever the initial solve or a resolve returns normally, also after retries with other starting points and after restarts, the state is truthful: a claim of optimality, of infeasibility or of unboundedness goes back to an answer of that kind given by the solver in this call. The translation of the answers of Ipopt is exact, including problems without free variables. A retry loop ends with the first settled answer, with the first answer that cannot be retried, or with the last one.", "quantifier": "all configurations and all sequences of answers of the NLP solver", "why_tests_cant": "faulty answers and sequences of retries cannot be provoked at will", "anchors": ["src/Interfaces/BonOsiTMINLPInterface.cpp: solveAndCheckErrors, resolve, initialSolve, isAbandoned, isProvenOptimal, isProvenPrimalInfeasible", "src/Interfaces/Ipopt/BonIpoptSolver.cpp: solverReturnStatus, OptimizeTNLP"]}
{"id": "C266", "title": "The tree of the diving strategy that switches modes counts and keeps its nodes", "statement": "From the empty tree, after every sequence of operations that does not run into an assertion, the size is the number of nodes inside, the tree calls itself empty exactly when there are none, and pop removes exactly the node that top shows. While looking for solutions, with no node of the dive deeper than allowed, asking for the best node yields a node inside whenever some node is better than the cutoff.", "quantifier": "all sequences of operations, all nodes, cutoffs and mode changes", "why_tests_cant": "the state depends on a long history of operations in three modes", "anchors": ["src/CbcBonmin/BonDiver.cpp: CbcDfsDiver"]}
{"id": "C267", "title": "What the search reports at its end belongs together", "statement": "The solution kept is the one found in this run, and if none was found it is the one held before, unless there was nothing to branch on. The objective and bound reported are those of the same run in every case: problem without objects, solution found, none found. If the run ends regularly, the value returned and the status kept say the same thing.", "quantifier": "all outcomes of a search, all earlier states of the object", "why_tests_cant": "the combinations of outcomes are many and several cannot be forced in a test", "anchors": ["src/CbcBonmin/BonCbc.cpp: Bab::branchAndBound, bestBound"]}
{"id": "C268", "title": "Pseudo-costs are the averages of what was recorded", "statement": "The estimate of a direction with at least one record is the fractional part times the average of the recorded changes per unit, up to the fixed tiny term; the combination of two directions lies between the smaller and the larger for every criterion in [0,1]; no update lowers the number of records of a direction, and a branch that moved the variable by less than 1e-6 changes nothing.", "quantifier": "all lists of records, all updates, all criteria in [0,1]", "why_tests_cant": "averages after arbitrarily long histories are not testable one by one", "anchors": ["src/Algorithms/Branching/BonChooseVariable.cpp: updateInformation, computeMultipliers", "src/Algorithms/Branching/BonPseudoCosts.cpp"]}
{"id": "C269", "title": "A point returned by a MINLP dive is what it is called", "statement": "Whenever a diving heuristic returns a point, its integer variables are integral to the integer tolerance, every row holds up to the larger of 1e-6 and the violation of that row at the relaxation, the value returned is the objective there and is better than the incumbent, and the point lies in the box that the dive had reached by exactly the fixings it made.", "quantifier": "all problems, all answers of the NLP solver, all selections of variables, all lengths of the dive", "why_tests_cant": "the run depends on the NLP solver's answers at every step", "anchors": ["src/CbcBonmin/Heuristics/BonHeuristicDive.cpp: solution, isNlpFeasible, adjustPrimalTolerance"]}
{"id": "C270", "title": "The feasibility pump heuristic aims at integer points and stops", "statement": "If the answers of the NLP solver stay within the bounds up to the primal tolerance, every target of the pump is integral and within the bounds to the same tolerance, and there are at most 200 targets. The pump ends with an integral point, with a distance below 1e-5 to its last target, or with 200 targets. It reports a solution exactly when the problem with integer variables fixed at the rounded point has a solution better than the incumbent, and then reports that solution and its value.", "quantifier": "all problems, all answers of the NLP solver, all orders of equal scores in the sort", "why_tests_cant": "cycles and flips depend on answers that a test cannot choose", "anchors": ["src/CbcBonmin/Heuristics/BonHeuristicFPump.cpp: RoundingFPump"]}
{"id": "C271", "title": "A file of bounds changes exactly the bounds it names", "statement": "If a well formed, nonempty file of bounds is read and applied without leaving the arrays, every lower bound is the value of the last line naming it or else the old one, likewise every upper bound, and the arrays keep their length. Applying is defined exactly when the file can be read and all its indices are in range. Reading the file always ends.", "quantifier": "all files, all boxes", "why_tests_cant": "order and repetition of lines give unboundedly many files", "anchors": ["src/Interfaces/BonBoundsReader.cpp: readAndApply, read"]}
{"id": "C272", "title": "Which outer approximation cuts are returned", "statement": "With a point to be cut off given, the cuts returned for the constraints are exactly those whose violation at the point reaches the threshold, or all if the threshold is not positive or the list was not asked for a linear program, in order of the rows and relaxed as documented; the cut of the objective is added under the same rule. The computation fails exactly if the Jacobian names a row that does not exist.", "quantifier": "all points, thresholds, rows and Jacobians", "why_tests_cant": "the filter depends on exact comparisons with each cut's activity", "anchors": ["src/Interfaces/BonOsiTMINLPInterface.cpp: getOuterApproximation"]}
{"id": "C273", "title": "Local branching runs as often as allowed and in the right neighbourhood", "statement": "A newly made local branching heuristic runs at most as often as the greatest number of solutions it is told, and a call runs exactly when more solutions are known than at the last run and there is a best one. On problems with binary variables its problem contains exactly the feasible points that differ from the best known point in at most half of the integer variables.", "quantifier": "all histories of calls, all problems with binary integer variables, all best points", "why_tests_cant": "a history of calls and a set of points cannot be enumerated", "anchors": ["src/CbcBonmin/Heuristics/BonHeuristicLocalBranching.cpp: solution, validate", "src/CbcBonmin/Heuristics/BonFixAndSolveHeuristic.cpp: solution"]}
{"id": "C274", "title": "The violation used to stop ECP rounds means what it says", "statement": "The violation is at most t exactly when every row looked at holds up to t, bounds beyond 1e10 being absent; together with the objective it is at most t exactly when, besides, the objective is at most t above the value of the linear relaxation. The check that the relaxation is below the objective fails exactly from an excess of 1e-8 on.", "quantifier": "all rows, all values, all thresholds t that are not negative", "why_tests_cant": "equivalences over all thresholds are not a set of test values", "anchors": ["src/Interfaces/BonOsiTMINLPInterface.cpp: getConstraintsViolation, getNonLinearitiesViolation"]}
{"id": "C275", "title": "When the linear part of an AMPL objective is right", "statement": "On every model in AMPL's order of variables, getLinearPartOfObjective gives zero for the variables nonlinear in the objective and the gradient entry for all others, whatever the gradient, exactly when all constraints are linear or the objective is linear. It writes outside the array exactly when its second range is not empty and ends behind the last variable; otherwise each entry is as stated.", "quantifier": "all models in the order that AMPL writes", "why_tests_cant": "the defect shows only in models where both kinds occur", "anchors": ["src/Interfaces/Ampl/BonAmplTMINLP.cpp: getLinearPartOfObjective"]}
{"id": "C276", "title": "Which objective and which concave constraints are read from AMPL suffixes", "statement": "With several objectives the one used as upper bound is the last one whose suffix is 1, or none; the objective minimised is the second exactly when the first is the upper bounding one. The constraints taken as concave are those with a primary suffix that is not zero, in order. Reading stops the program exactly when the variable suffix is missing, or some such constraint has not two variables, or the variable named is not in it.", "quantifier": "all suffix vectors, all numbers of objectives", "why_tests_cant": "suffixes are arbitrary integers in arbitrary places", "anchors": ["src/Interfaces/Ampl/BonAmplTMINLP.cpp: read_obj_suffixes, read_convexities, read_priorities, Initialize"]}
{"id": "C277", "title": "What filterSQP's return code becomes", "statement": "Every integer that filterSQP can return is mapped to one status: 0 is optimal, 1 to 4 infeasible, 5, 6 and 8 a limit, 7 an error in an evaluation, everything else an exception; the status told to the problem agrees with the one returned; the objective passed on is the solver's, or the infeasibility measure for code 3.", "quantifier": "all integers as return codes, all answers", "why_tests_cant": "codes outside the documented ones are not produced by a working solver", "anchors": ["src/Interfaces/Filter/BonFilterSolver.cpp: callOptimizer"]}
{"id": "C278", "title": "A copied problem answers as the original", "statement": "If the arrays of a problem with at least one variable are consistent and the copy is made, then the copy shows the same bounds, types, starting point, solution and status, and is consistent itself. The copy can be made exactly when the stored row values are absent or complete and the stored starting point is complete if duals are to be used.", "quantifier": "all consistent states of the problem", "why_tests_cant": "the state before copying is the result of an arbitrary history", "anchors": ["src/Interfaces/BonTMINLP2TNLP.cpp: gutsOfCopy, operator=, copy constructor, Set_x_sol, resetStartingPoint", "src/Algorithms/QuadCuts/BonTMINLP2Quad.cpp: copy constructor, addCuts, removeCuts, set_linear_objective, eval_f"]}
{"id": "C279", "title": "Copies of the problem with its own type arrays never share them", "statement": "After every sequence of allowed operations on objects holding an array of variable types, every array alive belongs to exactly one object, every pointer held points to a live array, and when no object is left no array is left.", "quantifier": "all sequences of allowed operations on any number of objects", "why_tests_cant": "double deletion and leaks depend on the interleaving of operations", "anchors": ["src/Interfaces/BonAuxInfos.cpp: AuxInfo, setNlpSolution, nlpObjValue", "src/Interfaces/BonAuxInfos.hpp: nlpSolution"]}
{"id": "C280", "title": "Solver parameters are read back as last set", "statement": "After any sequence of settings, reading the dual objective limit, the objective offset or the problem name gives the value last accepted, or the initial one; a setting that is refused changes nothing; which settings are accepted, and what all other readings return, is fixed.", "quantifier": "all sequences of settings, all values", "why_tests_cant": "a sequence of settings of any length", "anchors": ["src/Interfaces/BonOsiTMINLPInterface.cpp: setIntParam, setDblParam, setStrParam, getIntParam, getDblParam, getStrParam"]}
{"id": "C281", "title": "Points and multipliers set on the interface are read back", "statement": "A point set before a solve is the solution shown and the starting point used until something else is set, whatever harmless operations come between. Adding or removing rows does not change a solution shown after an optimal solve. Adding rows extends multipliers by zeros. Row prices set are read back for all rows.", "quantifier": "all sequences of harmless operations, all points and multipliers", "why_tests_cant": "the invariants range over histories", "anchors": ["src/Interfaces/BonOsiTMINLPInterface.cpp: getColSolution, getRowPrice, getRowActivity, setColSolution, setRowPrice", "src/Interfaces/BonTMINLP2TNLP.cpp: setxInit, setDualsInit, resetStartingPoint, finalize_solution", "src/Algorithms/QuadCuts/BonTMINLP2Quad.cpp: addCuts, removeCuts"]}
{"id": "C282", "title": "Which basis is made up from an NLP solution", "statement": "The basis made up from a solution has all columns free and a row basic exactly when its activity is at least 1e-4 away from both bounds; it can be made exactly when the row activities are there; it has as many basic members as rows exactly when no row is active.", "quantifier": "all solutions and row bounds", "why_tests_cant": "equivalence over all activities", "anchors": ["src/Interfaces/BonOsiTMINLPInterface.cpp: build_fake_basis, getWarmStart"]}
{"id": "C283", "title": "What a search is given from its setup", "statement": "Unless the dynamic depth first traversal is used, the comparison of nodes is the one asked for. Before a search the model receives the setup's cut generators and heuristics behind those it already has, the guess heuristic exactly for the best guess comparison, and the special options, strategy and tree under the stated conditions; hence a model used before agrees with the setup exactly if it had no generators, no heuristics and no options left from before.", "quantifier": "all setups, all models", "why_tests_cant": "reuse of a model with leftovers has many cases", "anchors": ["src/CbcBonmin/BonCbc.cpp: Bab::branchAndBound", "src/Algorithms/BonBabSetupBase.hpp: NodeComparison, TreeTraversal, CuttingMethod"]}
{"id": "C284", "title": "When a search ends normally in presence of interrupts and errors", "statement": "A search ends normally exactly when no interrupt comes in the first solve after an earlier one, no error is thrown there, and the main search is not started, because of an interrupt or because no time is left, or does not throw. An interrupt ends the program exactly when one was seen before, and the handler uses a model that is gone exactly when a first interrupt comes after the model was destroyed.", "quantifier": "all times, errors and interrupts", "why_tests_cant": "interrupts at exact moments cannot be produced by a test", "anchors": ["src/CbcBonmin/BonCbc.cpp: signal_handler, Bab::branchAndBound"]}
{"id": "C285", "title": "The violation of a quadratic cut says whether the cut holds", "statement": "Whenever the violation of a quadratic cut is defined, it is at most zero exactly when the value of the cut's function is between its bounds, and it is the greater of the two excesses, as computed from the row built from the cut. It is defined exactly when the indices of the cut fit the point.", "quantifier": "all cuts and all points", "why_tests_cant": "equivalence at all points", "anchors": ["src/Algorithms/QuadCuts/BonQuadCut.cpp: violated", "src/Algorithms/QuadCuts/BonTMatrix.cpp: TMat::create"]}
{"id": "C286", "title": "Collections of quadratic cuts own their cuts", "statement": "Every sequence of operations on collections of cuts has, on the contents seen, the effect of the same operations on lists of values; an operation is defined exactly when the list operation is and its stated condition holds; when all collections are gone no cut is left alive, and none is freed twice.", "quantifier": "all sequences of operations on any number of collections", "why_tests_cant": "aliasing appears only in particular interleavings", "anchors": ["src/Algorithms/QuadCuts/BonQuadCut.cpp: Cuts", "src/Algorithms/QuadCuts/BonQuadCut.hpp: Cuts"]}
{"id": "C287", "title": "The objective in the first linear relaxation", "statement": "A linear objective is passed on so that the linear program's value is the objective at every point and no row is added. A nonlinear objective gives one row, exactly the linearisation at the point with the coefficients kept, which demands the objective value at the point itself if no coefficient is dropped.", "quantifier": "all problems, all points", "why_tests_cant": "the equality is at all points", "anchors": ["src/Interfaces/BonOsiTMINLPInterface.cpp: extractLinearRelaxation, addObjectiveFunction"]}
{"id": "C288", "title": "The pump for MINLP hands on what its search found", "statement": "If the search inside returns only feasible points not above the cutoff, the heuristic returns only feasible points, with their objective, not above the cutoff. It returns one exactly when it is called at the root in the first pass with no solution known and the search finds one.", "quantifier": "all searches, all moments of a call", "why_tests_cant": "the inner search is a whole program", "anchors": ["src/CbcBonmin/Heuristics/BonPumpForMinlp.cpp: solution", "src/CbcBonmin/Heuristics/BonDummyPump.cpp: solution", "src/CbcBonmin/Heuristics/BonLocalSolverBasedHeuristic.cpp: doLocalSearch"]}
{"id": "C289", "title": "Which algorithm an initialisation uses and what it leaves behind", "statement": "After every sequence of initialisations of a setup, the algorithm used by each one is the one chosen before or else the option read, and only the first form of initialisation remembers it; the solvers and branching methods not freed at the end are exactly all but the last ones; generators and heuristics are all freed and nothing is freed that was not made.", "quantifier": "all sequences of operations on a setup, all options", "why_tests_cant": "histories of several initialisations", "anchors": ["src/Algorithms/BonBonminSetup.cpp: initialize, getAlgorithm, initializeBBB, initializeBHyb", "src/Algorithms/BonBabSetupBase.cpp: use, ~BabSetupBase"]}
{"id": "C290", "title": "Which branch of an n-way branching keeps a solution", "statement": "For a set of binary members, a solution with member k at one, not fathomed, lies in branch i exactly in these cases: no member is left out and k is the i-th in the order; members are left out, i is not the last of the order and k is the i-th; members are left out, i is the last of the order and k is among those left out. The box of every branch is exactly the one of its case.", "quantifier": "all objects, boxes, orders of branching and solutions", "why_tests_cant": "a lost solution shows only when it is the one probed", "anchors": ["experimental/RobotBonmin/BonNWayObject.cpp: createBranch, branch", "experimental/RobotBonmin/BonNWayObject.hpp: applyToSolver, numberBranches"]}
{"id": "C291", "title": "The quick fixing of an n-way set fixes exactly what exceeds the cutoff", "statement": "A member is fixed at its lower bound exactly when its recorded value exceeds the cutoff; all other upper bounds and all lower bounds stay; a count of zero means that nothing changed.", "quantifier": "all sets with distinct members, all records and cutoffs", "why_tests_cant": "records are arbitrary histories", "anchors": ["experimental/RobotBonmin/BonNWayChoose.cpp: setupList (initial bounds), doStrongBranching, chooseVariable (quick fixing)"]}
{"id": "C292", "title": "Recorded pseudo-costs of n-way objects recover the values they came from", "statement": "A recorded change per unit, times the residual and added to the old objective, gives back the value that was measured, and is positive exactly if the objective rose. Records made in the tree and at the root enter exactly one entry, and with arithmetic means an object not evaluated at the root has the mean of the changes found below, or zero if there are none.", "quantifier": "all values and residuals, all tables of records", "why_tests_cant": "depends on arbitrary histories", "anchors": ["experimental/RobotBonmin/BonNWayChoose.cpp: setupList (rows at the root), doStrongBranching (recording), compute_usefulness (means)"]}
{"id": "C293", "title": "Perspective tangents of separable rows", "statement": "The tangent made for a row is exactly the linearisation at the point, with its constant moved to the switching variable where there is one; it holds at every point with the switching variable and the row's variables at zero. For several rows, tangents are made for all nonlinear rows, or none at all if one of them yields nothing.", "quantifier": "all rows, points and switching variables", "why_tests_cant": "validity at all points that are switched off", "anchors": ["experimental/Separable/SepaTMINLP2OsiLP.cpp: get_oa, get_oas", "experimental/Separable/BonOuterDescription.cpp: cleanNnz, getMyOuterApproximation"]}
{"id": "C294", "title": "Which branching candidates BCP collects", "statement": "The list of candidates for strong branching is the first n of: both directions of every fractional object in their order, then for every integral object each direction that its bounds allow. It has n entries exactly when at least n candidates exist.", "quantifier": "all lists of objects, all sort orders, all n at least one", "why_tests_cant": "the order depends on sorting with ties", "anchors": ["experimental/Bcp/BM_lp_branch.cpp: collect_branch_data, sort_objects"]}
{"id": "C295", "title": "Fixing and fathoming by strong branching in BCP loses nothing wanted", "statement": "If the answers of strong branching are true and the cutoff test is monotone, then a node that is fathomed contains no feasible integral point below the cutoff, and every such point lies in the box with the fixings made.", "quantifier": "all answers, all boxes, all problems, all feasible points", "why_tests_cant": "soundness over all points", "anchors": ["experimental/Bcp/BM_lp_branch.cpp: process_SB_results, isBranchFathomable"]}
{"id": "C296", "title": "What BCP does with a node after strong branching", "statement": "The return code and the presence of a branching object decide between fathoming, solving again and branching; with a fractional object strong branching never leads to the fatal error; and if the node is to be solved again, the fixings cut off the present relaxation solution.", "quantifier": "all answers of strong branching, all lists of objects", "why_tests_cant": "termination of the resolve loop depends on all answers", "anchors": ["experimental/Bcp/BM_lp_branch.cpp: bbBranch (880-908), try_to_branch (757-759)"]}
{"id": "C297", "title": "The solution sent to BCP's master is dense and exact", "statement": "A sparse solution with distinct indices in range becomes a vector of full length; continuous entries are copied, integer entries become the nearest integer, all others are zero.", "quantifier": "all sparse solutions", "why_tests_cant": "all index sets and values", "anchors": ["experimental/Bcp/BM_tm.cpp: write_AMPL_solution", "experimental/Bcp/BM_lp.cpp: test_feasibility_hybrid"]}
{"id": "C298", "title": "What the rounding heuristic's cuts exclude", "statement": "On binary problems with a truthful MIP solver, the cuts collected over any history of calls are satisfied by a binary point exactly if for every point met before some variable at one there is zero here. Once the MIP is infeasible the heuristic never finds anything again and never changes.", "quantifier": "all histories of calls, all binary points", "why_tests_cant": "histories of calls", "anchors": ["src/CbcBonmin/Heuristics/BonMilpRounding.cpp: solution (298-325)"]}
{"id": "C299", "title": "Which NLP solver is made by a history of initialisations", "statement": "On a new interface the first initialisation succeeds exactly when the chosen solver is compiled in and starts; an unavailable choice changes nothing; after the first available one, the solver, its options and the list of further solvers stay whatever later initialisations ask for.", "quantifier": "all histories of initialisations", "why_tests_cant": "histories with several choices", "anchors": ["src/Interfaces/BonOsiTMINLPInterface.cpp: initialize, setSolver, createApplication, setModel (431-515)"]}
{"id": "C300", "title": "Objective coefficients shown are the gradient at the last solution", "statement": "After any sequence of operations, the objective coefficients are defined exactly when there is a column and a solve has happened, and then they are the gradient of the objective at the last solution.", "quantifier": "all sequences of operations, all gradients", "why_tests_cant": "histories of solves and changes", "anchors": ["src/Interfaces/BonOsiTMINLPInterface.cpp: getObjCoefficients (3097-3116), getReducedCost (1283-1292)", "src/Interfaces/BonTMINLP2TNLP.cpp: eval_grad_f (418-423)"]}
{"id": "C301", "title": "The check against a known solution raises the right alarms", "statement": "The alarm after a solve is raised exactly when the known point is inside the box up to the tolerance and the solve is not optimal or gives more than the known value. With integral bounds and an integral point the test for the path is exact. If the solver is truthful and the known value is below the cutoff, a side containing the known point is never taken for infeasible.", "quantifier": "all known points, boxes and answers", "why_tests_cant": "all points and boxes", "anchors": ["src/Interfaces/BonOsiTMINLPInterface.cpp: solveAndCheckErrors (2621-2630)", "src/Algorithms/Branching/BonChooseVariable.cpp: doStrongBranching (845-848, 892-895)"]}
{"id": "C302", "title": "What the whole search of BCP with nonlinear relaxations finds is optimal", "statement": "When the search has no open node left, its best solution is feasible and no solution of the problem is better by more than the granularity; without best solution the problem has none.", "quantifier": "all problems, all solvers of the relaxations, all orders of the nodes, all numbers of branches evaluated in pairs, all records of strong branching left from before", "why_tests_cant": "a statement about whole runs on all problems", "anchors": ["experimental/Bcp/BM_lp.cpp: initialize_new_search_tree_node, test_feasibility_BB, compute_lower_bound (88-132, 164-196, 312-328)", "experimental/Bcp/BM_lp_branch.cpp: select_branching_candidates, try_to_branch, branching (30-88, 745-1003)"]}
{"id": "C303", "title": "The best solution of the BCP search is the point of a solve, whole up to the tolerance", "statement": "At any moment the best solution is the point of some solve within the root bounds, not reported infeasible, with the objective of this solve; its integer columns are within their bounds at the root and whole up to integer_tolerance.", "quantifier": "all problems, solvers, orders and options as in C302", "why_tests_cant": "a statement about whole runs on all problems", "anchors": ["experimental/Bcp/BM_lp.cpp: initialize_new_search_tree_node, test_feasibility_BB, compute_lower_bound (88-132, 164-196, 312-328)", "experimental/Bcp/BM_lp_branch.cpp: select_branching_candidates, try_to_branch, branching (30-88, 745-1003)"]}
{"id": "C304", "title": "The BCP search never ends with an error of its own", "statement": "A run does not stop with the fatal error for a node that cannot be branched on, with a failed assertion, or by reading a field that was never written.", "quantifier": "all problems, solvers, orders and options as in C302", "why_tests_cant": "a statement about whole runs on all problems", "anchors": ["experimental/Bcp/BM_lp.cpp: initialize_new_search_tree_node, test_feasibility_BB, compute_lower_bound (88-132, 164-196, 312-328)", "experimental/Bcp/BM_lp_branch.cpp: select_branching_candidates, try_to_branch, branching (30-88, 745-1003)"]}
{"id": "C305", "title": "The BCP search comes to an end", "statement": "However the nodes are picked, a search has at most 3^((s+1)m) solves, where s is the sum of the widths of the integer columns at the root and m the number of failures in a row at which a node is dropped; and a run to the end exists.", "quantifier": "all problems, solvers, orders and options as in C302, the branching of BCP itself not having nodes solved again", "why_tests_cant": "a statement about whole runs on all problems", "anchors": ["experimental/Bcp/BM_lp.cpp: initialize_new_search_tree_node, test_feasibility_BB, compute_lower_bound (88-132, 164-196, 312-328)", "experimental/Bcp/BM_lp_branch.cpp: select_branching_candidates, try_to_branch, branching (30-88, 745-1003)"]}
{"id": "C306", "title": "B-QG with the cuts of the interface solves convex problems", "statement": "On a convex MINLP, a run of B-QG whose cuts are the outer approximations computed by the interface at the NLP solutions ends with an optimal solution, or with none when there is none below the cutoff.", "quantifier": "all convex problems, all LP and NLP solvers that solve their problems, all orders of the nodes, all multipliers reported", "why_tests_cant": "a statement about whole runs on all convex problems", "anchors": ["src/Interfaces/BonOsiTMINLPInterface.cpp: getOuterApproximation (1923-2107)", "src/Algorithms/OaGenerators/BonOaFeasChecker.cpp: doLocalSearch (37-135)", "src/Algorithms/OaGenerators/BonOACutGenerator2.cpp: performOa (61-284)"]}
{"id": "C307", "title": "One call of the OA decomposition with the cuts of the interface is right on convex problems", "statement": "On a convex MINLP, the bound and the solutions which one call of the OA decomposition reports, with the outer approximations computed by the interface, are right: solutions are feasible, and no feasible point below the cutoff is better than the bound by more than the allowed gap.", "quantifier": "all convex problems, all MILP, LP and NLP solvers that solve their problems, any number of passes, all multipliers reported", "why_tests_cant": "a statement about whole runs on all convex problems", "anchors": ["src/Interfaces/BonOsiTMINLPInterface.cpp: getOuterApproximation (1923-2107)", "src/Algorithms/OaGenerators/BonOaFeasChecker.cpp: doLocalSearch (37-135)", "src/Algorithms/OaGenerators/BonOACutGenerator2.cpp: performOa (61-284)"]}
{"id": "C308", "title": "The cuts at the solution of an NLP exclude its integers below its value", "statement": "Let the integers be fixed and the NLP be solved (or found infeasible) with the first-order conditions met at the answer. A point with the same integers that satisfies the linear rows and all outer-approximation cuts made there has an objective variable of at least the value of the NLP; if the NLP was infeasible there is no such point.", "quantifier": "all problems, points and multipliers, if no right-hand side is relaxed and no coefficient is small", "why_tests_cant": "for all problems and points", "anchors": ["src/Interfaces/BonOsiTMINLPInterface.cpp: getOuterApproximation (1923-2107)", "src/Algorithms/OaGenerators/BonOaFeasChecker.cpp: doLocalSearch (37-135)", "src/Algorithms/OaGenerators/BonOACutGenerator2.cpp: performOa (61-284)"]}
{"id": "C309", "title": "B-Hyb and B-Ecp with the cuts of the interface solve convex problems", "statement": "On a convex MINLP, a run of B-Hyb or B-Ecp - branch-and-cut with NLP relaxations solved at nodes, ECP rounds, the feasibility checker, further valid cuts and heuristics - ends with an optimal solution, or with none when there is none below the cutoff.", "quantifier": "all convex problems, all LP and NLP solvers that solve their problems, all orders of the nodes, all depths, frequencies and random numbers that decide where generators run, all LPs and tolerances of the ECP rounds", "why_tests_cant": "a statement about whole runs on all convex problems", "anchors": ["src/Algorithms/BonBonminSetup.cpp: the generators of B-Hyb and B-Ecp (736-800)", "src/Algorithms/OaGenerators/BonOaNlpOptim.cpp: generateCuts (62-173)", "src/Algorithms/OaGenerators/BonEcpCuts.cpp: generateCuts (45-143)", "src/Interfaces/BonOsiTMINLPInterface.cpp: getOuterApproximation (1923-2107)", "src/Algorithms/OaGenerators/BonOaFeasChecker.cpp: doLocalSearch (37-135)"]}
{"id": "C310", "title": "B-OA with the cuts of the interface solves convex problems, at the root when the decomposition closes the gap", "statement": "On a convex MINLP with finitely many integer assignments, the OA decomposition at the root of B-OA returns; the cuts and the solution it hands over are right; when it gives the root up, the run is over and its last solution is optimal up to the increment; otherwise the search that follows ends with such a solution, or with none when there is none below the cutoff.", "quantifier": "all convex problems, all MILP, LP and NLP solvers that solve their problems, all limits, orders of the nodes, increments and gaps", "why_tests_cant": "a statement about whole runs on all convex problems", "anchors": ["src/Algorithms/BonBonminSetup.cpp: the generators of B-OA (655-667, 776-800)", "src/Algorithms/OaGenerators/BonOACutGenerator2.cpp: performOa (60-289)", "src/Algorithms/OaGenerators/BonOaDecBase.cpp: generateCuts, post_nlp_solve (238-400)", "src/Interfaces/BonOsiTMINLPInterface.cpp: getOuterApproximation (1923-2107)", "src/Algorithms/OaGenerators/BonOaFeasChecker.cpp: doLocalSearch (37-135)"]}
{"id": "C311", "title": "The problem shipped as an example is the documented one, with consistent derivatives and structure", "statement": "The callbacks of the shipped example compute the objective, constraints, bounds and types of the problem documented in its header; gradient, Jacobian and Hessian are the derivatives of these functions; the sparsity structures have the announced numbers of entries, positions in range and one triangle of the Hessian; the linearity flags are right; and the problem has exactly one optimal solution, with value -5/2.", "quantifier": "all points, directions and multipliers", "why_tests_cant": "derivative checkers look at sampled points", "anchors": ["examples/CppExample/MyTMINLP.cpp: all callbacks (12-235)", "examples/CppExample/MyTMINLP.hpp: documented problem (14-26)", "examples/CExample/MyBonmin.c", "examples/CExample/main.c"]}
{"id": "C312", "title": "When the master problem proposes the integers of the last NLP again, a convex problem is solved", "statement": "On a convex MINLP, after the outer approximation at the solution of an NLP with fixed integers was added, the LP and MILP propose the same integers again only when no solution is better than that of the NLP; so giving up the node in that case, as B-OA and B-QG do, loses nothing, and their result is optimal.", "quantifier": "all convex problems, all solvers that are right", "why_tests_cant": "a statement about whole runs on all convex problems", "anchors": ["src/Algorithms/OaGenerators/BonOACutGenerator2.cpp: integers unchanged (178-196, 241-252)", "src/Algorithms/OaGenerators/BonOaFeasChecker.cpp: integers unchanged (94-117)", "src/Interfaces/BonOsiTMINLPInterface.cpp: getOuterApproximation (1923-2107)", "examples/CppExample/MyTMINLP.cpp"]}
{"id": "C313", "title": "The output level of FilterSQP and Bqpd at the root and afterwards", "statement": "A level forced for the root relaxation is the level of that run; going back to the default level is always defined, also for a copy of the solver, and restores the level the solver had before.", "quantifier": "all sequences of calls (initialisations, copies, forced levels, runs, warm starts, changes of options), all options", "why_tests_cant": "which variables were set depends on the sequence of calls; reading one that was not set usually goes unnoticed", "anchors": ["src/Interfaces/Filter/BonFilterSolver.cpp: copy constructor, Initialize, OptimizeTNLP, ReOptimizeTNLP, setWarmStart (270-397, 552-554, 645-673, 737-755)", "src/Interfaces/Filter/BonFilterSolver.hpp: setOutputToDefault, forceSolverOutput (144-152)", "src/Interfaces/Filter/BonBqpdSolver.cpp: constructor, clone, OptimizeTNLP (124-164, 209-262, 407-409)", "src/Interfaces/Filter/BonBqpdSolver.hpp: setOutputToDefault, forceSolverOutput (133-142)", "src/CbcBonmin/BonCbc.cpp: root relaxation (446-457)"]}
{"id": "C314", "title": "Reading a file of options into FilterSQP, Bqpd or the interface", "statement": "Initialising the solver with a file, or reading one through the interface, enters the settings of the file (the first of each name, unless protected), reports a file that cannot be read or has an error, and sets the level of the console to the print level asked for.", "quantifier": "all files, options and solver states", "why_tests_cant": "files with errors and protected settings in all combinations", "anchors": ["src/Interfaces/Filter/BonFilterSolver.cpp: Initialize (313-359)", "src/Interfaces/Filter/BonBqpdSolver.cpp: Initialize (170-206)", "src/Interfaces/BonOsiTMINLPInterface.cpp: readOptionFile (517-532)"]}
{"id": "C315", "title": "B-iFP with the cuts of the interface solves convex problems at the root", "statement": "On a convex MINLP with finitely many integer assignments, the feasibility pump at the root of B-iFP returns; the cuts and the solution it hands over are right; when it gives the root up, the run is over and its last solution is optimal up to the increment; otherwise the search that follows ends with such a solution, or with none when there is none below the cutoff.", "quantifier": "all convex problems, all MILP, LP and NLP solvers that solve their problems, all limits, orders of the nodes, increments and gaps", "why_tests_cant": "a statement about whole runs on all convex problems", "anchors": ["src/Algorithms/BonBonminSetup.cpp: the generators of B-iFP (668-680, 763-775, 789-800)", "src/Algorithms/OaGenerators/BonFpForMinlp.cpp: performOa, set_fp_objective (62-304)", "src/Algorithms/OaGenerators/BonOaDecBase.cpp: generateCuts, post_nlp_solve (238-400)", "src/Interfaces/BonOsiTMINLPInterface.cpp: solveFeasibilityProblem, getOuterApproximation (1923-2107, 2315-2337)", "src/Interfaces/BonTNLP2FPNLP.cpp: eval_f (157-169)", "src/Algorithms/OaGenerators/BonOaFeasChecker.cpp: doLocalSearch (37-135)"]}
{"id": "C316", "title": "The options of the OA decomposition and of the feasibility pump reach them", "statement": "The OA decomposition and the feasibility pump for MINLP run with the smaller of their own limits of time and solutions and the limits of the run; their own limit is the one the user has locked under their prefix, else the one of the algorithm, else the user's, else the default. Whether the pump may give up the root is decided by the option fp_pass_infeasible as the algorithm or the user has set it.", "quantifier": "all lists of options, all prefixes, all algorithms", "why_tests_cant": "the options under all names and their order of precedence are not enumerated by tests", "anchors": ["src/Algorithms/OaGenerators/BonFpForMinlp.cpp: constructor (29-46)", "src/Algorithms/OaGenerators/BonOACutGenerator2.cpp: constructor (30-46)", "src/Algorithms/BonBonminSetup.cpp: presets (640-699)", "doc/options_set.tex (95-122)"]}
{"id": "C317", "title": "The OA decomposition with relaxed right-hand sides is right up to a margin", "statement": "On a convex problem, with right-hand sides of the cuts relaxed by oa_rhs_relax, a MILP solver that stops within a gap and NLP solutions with multipliers that are only approximately stationary and complementary: a bound of the OA decomposition of at least the cutoff means that no feasible point is below the cutoff by more than the multipliers times the relaxations, the cost of the small coefficients left out of the cuts and the gaps, except within the allowed gap of the decomposition below the upper bound; all points handed over are feasible.", "quantifier": "all convex problems in the interface's form, all multipliers and errors, all MILP, LP and NLP answers that meet the stated contract, any number of passes", "why_tests_cant": "numerical relaxations and inexact solvers change where the loop stops; tests see one run each", "anchors": ["src/Algorithms/OaGenerators/BonOACutGenerator2.cpp: performOa (61-284)", "src/Interfaces/BonOsiTMINLPInterface.cpp: getOuterApproximation (1923-2107)"]}
{"id": "C318", "title": "B-QG with relaxed right-hand sides ends, and is right up to a margin", "statement": "On a convex problem, with right-hand sides of the cuts relaxed by oa_rhs_relax, with solvers whose answers do not depend on the past and infeasible NLPs infeasible by more than the relaxation, a run of B-QG ends; the best solution is a solution below the start cutoff, and no solution is better than it by more than the cutoff decrement or increment plus the multipliers times the relaxations and the cost of the small coefficients left out of the cuts, or the gap of the search, except in boxes dropped because the LP came within 1/10 of the integers of a solved NLP without reaching them.", "quantifier": "all convex problems in the interface's form, all LP and NLP answers that meet the stated contract, all trees, gaps, increments and node limits that suffice", "why_tests_cant": "whether the LP repeats an assignment, and what the node dropped for it holds, depends on numerical relaxations; tests see one run each", "anchors": ["src/Algorithms/OaGenerators/BonOaFeasChecker.cpp: doLocalSearch (37-135)", "src/Algorithms/OaGenerators/BonOaNlpOptim.cpp", "src/Interfaces/BonOsiTMINLPInterface.cpp: getOuterApproximation (1923-2107)"]}
{"id": "C319", "title": "B-Hyb and B-Ecp with relaxed right-hand sides end, and are right up to a margin", "statement": "On a convex problem, with right-hand sides of the cuts relaxed by oa_rhs_relax, NLP relaxations solved at nodes, ECP rounds, further valid cut generators and heuristics, and an integer tolerance of at most 1/10, a run of B-Hyb or B-Ecp ends; the best solution is a solution below the start cutoff, and no solution is better than it by more than the cutoff decrement or increment plus the multipliers times the relaxations and the cost of the small coefficients left out of the cuts, or the gap of the search, except in boxes dropped because the LP came within 1/10 of the integers of a solved NLP without reaching them.", "quantifier": "all convex problems in the interface's form, all LP and NLP answers that meet the stated contract, all calls of the generators (levels, random numbers, rounds), all trees, gaps, increments and node limits that suffice", "why_tests_cant": "the cuts of three generators with relaxed right-hand sides interact with the checker's test for repetitions; tests see one run each", "anchors": ["src/Algorithms/BonBonminSetup.cpp: the generators of B-Hyb and B-Ecp (737-762)", "src/Algorithms/OaGenerators/BonOaFeasChecker.cpp: doLocalSearch (37-135)", "src/Algorithms/OaGenerators/BonOaNlpOptim.cpp: generateCuts (62-173)", "src/Algorithms/OaGenerators/BonEcpCuts.cpp: generateCuts (45-143)", "src/Interfaces/BonOsiTMINLPInterface.cpp: getOuterApproximation (1923-2107)"]}
{"id": "C320", "title": "B-OA with relaxed right-hand sides ends, and is right up to a margin", "statement": "On a convex problem, with right-hand sides of the cuts relaxed by oa_rhs_relax and a MILP solver that stops within a gap: if the OA decomposition at the root returns, the run of B-OA ends; the best solution is a solution below the start cutoff; when the decomposition gives the root up, it is the solution found last and nothing is dropped; and no solution is better than it by more than the cutoff decrement or increment plus the multipliers times the relaxations and the cost of the small coefficients left out of the cuts (plus the gap of the MILP solver when the root is given up), or the gap of the search, except in boxes dropped because the LP came within 1/10 of the integers of a solved NLP without reaching them.", "quantifier": "all convex problems in the interface's form, all MILP, LP and NLP answers that meet the stated contract, all limits of the decomposition, all trees, gaps, increments and node limits that suffice", "why_tests_cant": "where the decomposition stops and what the search that follows can lose depends on numerical relaxations; tests see one run each", "anchors": ["src/Algorithms/BonBonminSetup.cpp: the generators of B-OA (655-667, 776-800)", "src/Algorithms/OaGenerators/BonOACutGenerator2.cpp: performOa (60-289)", "src/Algorithms/OaGenerators/BonOaFeasChecker.cpp: doLocalSearch (37-135)", "src/Interfaces/BonOsiTMINLPInterface.cpp: getOuterApproximation (1923-2107)"]}
{"id": "C321", "title": "The tables and the documentation of the options show what they are about", "statement": "In the LaTeX table of the options every option is printed under its own name. The HTML table is well formed; its rows hold for every option its name, the letter of its type and whether it is for each algorithm, in as many cells as the first row; the row of every category is a link to the section of that category in the documentation of the same options, and every section has such a link.", "quantifier": "all lists of options, all names and categories", "why_tests_cant": "the names are those registered by all components and subsolvers; tests print one list", "anchors": ["src/Interfaces/BonRegisteredOptions.cpp: makeLatex (29-42), makeSpaceLess (44-59)", "src/Interfaces/BonRegisteredOptions.cpp: writeHtmlOptionsTable (249-302)", "src/Interfaces/BonRegisteredOptions.cpp: writeLatexHtmlDoc (305-332)"]}
{"id": "C322", "title": "The setup for separable problems does what its options say", "statement": "A SepaSetup uses for the initial outer description the number of points, and the inner approximation heuristic exactly if the algorithm is B-OA and heuristic_inner_approximation is set, as the options in force for its prefix say: after initialize with a problem or with an interface, in copies, and in copies with another prefix, in every sequence of such calls.", "quantifier": "all sequences of reading options, initialize with a problem or an interface, copies with and without another prefix; all options and prefixes", "why_tests_cant": "the state depends on the order of the calls and on options of several prefixes; tests initialize once from AMPL", "anchors": ["experimental/Separable/SepaSetup.cpp: constructors (21-42), initialize (71-108), initializeSepa (110-136)", "src/Algorithms/BonBonminSetup.cpp: initialize (160-186), getAlgorithm (907-917)", "src/Algorithms/BonBabSetupBase.cpp: copy constructors (78-214), use (245-300)"]}

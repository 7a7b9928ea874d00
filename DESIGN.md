# Formal model of Bonmin in Lean 4 — design

## What is trusted

* The Lean 4.33.0 kernel and the installed Mathlib (only proved theorems are used).
* Axioms: every property theorem depends on at most `propext`, `Classical.choice`, `Quot.sound`.
  No own axioms, no `sorry`, no `native_decide`, no `bv_decide`.
* The reading of the C++ text in `/repo`: each definition cites file and lines; the code is not run.

## Modelling conventions

* **Numbers.** `double` is modelled by the rationals `ℚ` with exact arithmetic (every finite double is a
  rational).  Rounding and overflow are *outside the model*; NaN too, except for the
  averages of pseudo-costs in C50 (`none`).  "Infinite" bounds are large rationals
  compared with a threshold parameter, exactly as the code does (`COIN_DBL_MAX`, `infty`), or an `Option`
  where the code only tests against infinity.
* **User functions** (objective, constraints, gradients) are arbitrary functions on points; convexity is
  used as "the gradient inequality holds", which is the defining property the algorithms rely on.
* **External solvers** (Ipopt, Filter, Cbc, Clp, the MILP sub-solver) are parameters (oracles).  What is
  assumed of them is stated in each theorem, never as an axiom.  `CbcTree` (heap of Cbc) is modelled as a bag
  of nodes with the documented `bestNode(cutoff)` behaviour.  Ipopt's `OptionsList` is modelled by its documented
  behaviour: lookup of prefix + name, then name, then the registered default; a set is refused when the stored value
  disallows clobbering.
* **Undefined behaviour** (out-of-range index, dangling pointer, read of uninitialised storage, failed `assert`,
  endless loop) is a distinct outcome: `none`/`Except.error`, or a fuel-independent non-termination statement.
* **Loops** become structural recursion or folds over lists; in-place mutation returns the new value.
* **Threads, timing, output, memory leaks, performance** are outside the model.

## Layout

`lean/Verif/<Area>/Model.lean` holds the definitions (with citations), `Lemmas.lean` helper lemmas and
`Props.lean` the property theorems with non-vacuity examples.  `MANIFEST.json` maps properties to theorems,
`seeded/LOG.jsonl` records mutation experiments.  A failure counts only in a module that depends on the file edited (an early batch was run while an unrelated module did not build; its records have been corrected and the four edits that had
failed nothing else were run again).  Records whose note says that only an example fails are edits no theorem notices: they change sample data, a name or an arbitrary first address.  A theorem can also fail because its proof no longer fits, not because its statement is false; the records do not tell these apart.

## Plan per property

| id | what is modelled | how proved |
|----|------------------|-----------|
| C01–C03 | `QuadRow` construction (gradient map), `eval_f`, `eval_grad`, `eval_hessian` | induction over the triplet list; equality with the quadratic form; identity `f(x+d)=f(x)+∇·d+q(d)` |
| C04 | Hessian map with reference counts, add/remove of rows | invariant over operation histories |
| C05 | `addCuts`/`addRowCuts`/`removeCuts` on row lists | refinement to `List` filtering |
| C06 | `TMatrix` sort/merge/triangle moves | preservation of the form; refutation where the loop does not do it |
| C07–C08 | `TMINLPLinObj` callbacks | equivalence of feasible sets/optima; structural equality of derivatives |
| C09–C12 | OA cut generation incl. `cleanNnz` (3 variants), Benders cut | convexity inequality + bounds; counterexample where signs are wrong |
| C13 | disjunctive merge in `CutStrengthener` | algebra for binaries/adjacent values; counterexample for general integers |
| C14–C15 | `TNLP2FPNLP` | identities; refutations for combined constraints |
| C16 | `randomStartingPoint` | case analysis, for every draw in [0,1] |
| C17, C19 | `resolveForCost`, status flags | invariant over outcome sequences; refutation for the sticky flag |
| C18 | `zeroDimension` | decision logic |
| C20 | `TMINLP2TNLP` setters | refinement to "last write wins" |
| C21–C24 | three dive trees over an abstract heap | multiset conservation over histories; refutations with histories |
| C25 | failure counters | characterisation over outcome sequences |
| C26 | final status logic of `Bab` | decision table; refutation across runs |
| C27–C30 | `setupList`, random choice, strong branching loop, pseudo costs | permutation/sortedness; invariants |
| C31 | `solverManip` | state restoration for any intermediate op history |
| C32 | OA loop with NLP/MILP oracles | soundness and termination by finite set of assignments |
| C33–C34 | dive loop, `isNlpFeasible`, selection rules | exact description of every step for arbitrary oracles; selection = arg-min |
| C35 | `RoundingFPump`, pump loop | exact rounding rule; invariant of the loop for arbitrary oracles |
| C36 | no-good cut and end of `MilpRounding::solution` | exact set of points removed; no repetition over histories |
| C37, C57 | RINS, local branching, fix-and-solve | exact neighbourhoods; invariants over call histories |
| C55–C56 | column-ordered matrices of MILP rounding and dive-MIP | induction over sorted entries; equivalence of rows |
| C38 | warm start diff/apply | round trip |
| C39 | `TMat2RowPMat` | CSR correctness by induction |
| C40 | `BranchingTQP` | algebraic identities |
| C41–C42 | readers, `sos_kludge` | induction over input lists |
| C43 | integrality tests | equivalence / refutation |
| C51 | `generateCuts`, feasibility checker | invariants over call sequences; exit condition; finite assignments |
| C44–C45 | copies, C interface | structural; UB as outcome |
| C52 | `hasGeneralInteger` | decision logic |
| C53–C54 | `BonminSolve`, callbacks of `StdInterfaceTMINLP` | exact outcome; induction over evaluation sequences |
| C46 | `extractLinearRelaxation` row assembly | validity for all points under provisos; one refutation per proviso |
| C47 | filtering of violated OA rows | exact characterisation of the returned list |
| C48 | `check_solution`, `round_and_check` | decision logic |
| C49 | `forceInfeasible`, `forceBranchable` | decision logic |
| C58, C63 | `LpBranchingSolver` | exact bounds per column, invariant over probe sequences; refutation |
| C59, C64 | `EcpCuts` | exact description of runs as iterates; soundness by invariant; refutation for stale values |
| C60 | violation measures | equivalence with row-wise violation |
| C61–C62, C65 | `MinlpFeasPump` | algebraic identity for the objective; loop invariant; refutations |
| C66, C69 | `OaNlpOptim::generateCuts` | exact outcome; invariants over call sequences; refutations |
| C67 | `SubMipSolver` (Cbc) | refinement of histories to 'last solve' |
| C68 | `LinearCutsGenerator::generateCuts` | closed form of the removal loop; refutation |
| C70 | `gatherParametersValues`, `initializeBBB` | options list with locked values and prefixes; closed form of the result; refutations |
| C71, C72 | `initializeBHyb`, `addMilpCutGenerators` | effect of the presets on every option; exact generator and heuristic lists; refutation |
| C73 | object creation in `BonCbc.cpp`, `setPriorities`, `addSos` | equality with the user's view, decoding of the SOS arrays by induction; refutations |
| C74 | copy constructors and destructor of the setups | addresses and contents; freshness; refutations |
| C75 | `DiverCompare`, `cleanTree` | invariants over all histories on top of the diver model; refutations |
| C76 | `GuessHeuristic::solution` | closed form |
| C77 | `get_variables_types`, `get_variables_linearity`, `hasLinearObjective` | AMPL's counts computed from an ordered list of variables; position of a variable bounded by the counts of smaller keys |
| C78 | `read_priorities`, `read_onoff`, types in `read_sos` | exact characterisations by induction over the suffix lists |
| C79 | `finalize_solution`, `write_solution` after `Bab::branchAndBound` | case analysis, composed with the model of C26; refutations |
| C80 | `getLinearPartOfObjective` | exact contents; equivalence for correctness; refutations |
| C81 | `read_obj_suffixes`, `read_convexities`, `direction` suffix | exact characterisations; refutations |
| C82 | `FilterSolver::callOptimizer` (status) | case analysis; refutation |
| C83 | `OptimizeTNLP`, `ReOptimizeTNLP`, `cachedInfo`, warm starts of FilterSolver with the common blocks | invariant over all histories of several objects; exact call handed to filterSQP; refutations |
| C84 | `resolve` on top of C83 | exact; refutations |
| C85 | multipliers in `callOptimizer` | exact; stationarity from filterSQP's; refutation |
| C86 | BonBqpdSolver, BonQpBranchingSolver with bqpd as oracle | induction over candidates and retries; refutations |
| C87 | BonCurvatureEstimator, BonCurvBranchingSolver with the linear solver as oracle | projection characterised by optimality, exact sums, invariant over histories; refutations |
| C88 | BonTMINLP2TNLP copies and arrays, TMINLP2TNLPQuadCuts rows and linear objective | invariant over histories, exact domain of the copy; refutations |
| C89 | OsiTMINLPInterface construction, copy, assignment, Jacobian arrays, row count of the outer approximation | invariant over histories, exact views; refutations |
| C90 | `extractInterfaceParams`, statistics of `resolveForCost`, with Ipopt's option lookup as assumption | exact values, idempotence, invariant over histories; refutations |
| C91 | `initialSolve`, `resolve`, the retries, warm starts of Ipopt and `get_starting_point`, Ipopt as oracle | logs of starting points, induction over retries and nodes; refutations |
| C92 | `WarmStartIterate`, `UpdateStoredIterates` on lists of variables | induction over variables against the reduced vectors; refutations |
| C93 | `errorName`, `writeDiffFiles`, `StartPointReader`, with the reader of C41 | round trips over all bounds; case analysis of status numbers; refutations |
| C94 | shared cells of `AuxInfo`, update at the end of `solveAndCheckErrors`, end of `branchAndBound` (C26) | invariant over all sequences of operations against the first minimum of the points found |
| C95 | objects and arrays in a heap | refinement to objects that are values, ownership invariant |
| C96 | file as list of lines, array growth with its memory, hash map | exact result of reading, refinement of the index to the position in the file |
| C97 | file as list of words, stream with failure flag | round trip with the format of the AMPL library |
| C98 | registration, options list, installed generators | exact result of the constructor and of the installation |
| C99 | codes as bits, categories, sorted list, words of the options file | refinement over all sequences of declarations, round trip |
| C100 | statuses of CPLEX, array never written, rows with sides, objects and LPs | exact result, equivalence of feasible sets, ownership invariant |
| C101 | bounds of rows, three cached arrays | exact effect of each call, invariant over all histories |
| C102 | arrays of types and bounds | last write wins over all histories |
| C103 | types and bounds | exact result of the query |
| C104 | keys, fields and the base class | exact value of each key over all histories |
| C105 | arrays with sizes, reading past the end as undefined | exact result, persistence over all histories |
| C106 | bounds, activities, statuses | exact status by cases, count of basic variables |
| C107 | setup, settings of the model | exact settings for all models, condition for agreement with the setup |
| C108 | global flags, clock, solves as oracle | exact outcome by cases |
| C109 | kinds of objects, array with unset entries | induction over the list |
| C110 | matrix in triplets, value of the cut | exact value, condition for being defined |
| C111 | heap of cuts, collections of pointers | refinement and invariant over operation lists |
| C112 | objective part of the program | fold over the gradient, exact row |
| C113 | options list of Ipopt | exact value for every prefix and option |
| C114 | search as oracle | exact result |
| C115 | heap of addresses | exact set of objects left |
| C116 | table of reads, exact parameters after each algorithm's initialisation | exact equations |
| C117 | state machine of a setup, lists of settings | induction over sources |
| C118 | state machine with objects by number of initialisation | invariant over histories |
| C119 | the nonlinear problem as data, feasible sets and minima | projection of the feasible set, scalar products |
| C120 | two parts of ComputeCuts and the insertion by the interface | exact characterisation, validity from C13 |
| C121 | same model as C120 with disjunctions | validity from C13 |
| C122 | wrapper around an arbitrary problem, triplets as lists | Taylor expansion of quadratics, sums over triplets |
| C123 | copy as rebuilding of rows and Hessian | sorted keys are unique, invariant of C03 |
| C124 | same model as C122, calls with fuel | Taylor expansion |
| C125 | bounds as functions of the column, sort as sorted permutation | closed form of the bounds of each branch, induction over the members |
| C126 | same model as C125 | exact value of both loops, closed form of the branches |
| C127 | same model as C125, array of consequences with its length | case distinction |
| C128 | solver as a function of the bounds, bounds and rows as state of the loop | invariant of the loop: every good solution stays in the saved bounds |
| C129 | same model as C128 | invariant over the loop on branches and over the list of objects |
| C130 | same model as C128 | induction over the list |
| C131 | reading of the sets into groups, consequences from the groups | invariant of the groups over sets and places |
| C132 | the array filled from both ends, flush, worst slot | refinement to two lists (slots, end), invariant over the objects |
| C133 | loop over the members, rows as lists | induction over the members |
| C134 | rows of sums and counts, records as a list | invariant over the list of records |
| C135 | the column loop, perspective, points and rounds, `exit` and exceptions as outcomes | induction over rounds; every point of the range lies in a segment; convexity |
| C136 | outcome `exit` | induction over rows and rounds |
| C137 | decision with the MIP's last solution as parameter | composition with C135 |
| C138 | decision with MIP and NLP solvers as parameters | rounding stays between integer bounds |
| C139 | arrays as lists, write out of range = `none` | prefix invariance by induction |
| C140 | column loop with cleaning, optional sides, perspective | loop invariant act - ub <= linearisation |
| C141 | points as a list | induction over the steps |
| C142 | loop with fuel over the values along the line | both directions by induction; divergence for all fuel |
| C143 | buffers as token lists, reading a token of another type or beyond the end = `none` | round trip for all messages |
| C144 | token lists | induction over the updates |
| C145 | token lists | round trip |
| C146 | token lists | round trip |
| C147 | lists with block start, sort = any sorted permutation | loop invariant |
| C148 | array as the list of entries written | equality with a prefix |
| C149 | bounds as functions, solver as an oracle | induction over the branches |
| C150 | list of messages | induction over the processes |
| C151 | integers | case analysis |
| C152 | records as functions, messages as a permutation | commuting updates |
| C153 | records with fields never written = `none`, solver as an oracle, points as functions | truthfulness of records, then of the whole step |
| C154 | three loops with outcomes | exact characterisation by induction |
| C155 | fold with strict comparison | first best by induction |
| C156 | decision table | composition with C154 |
| C157 | order of children | truthfulness |
| C158 | counter handed down a path, path = list of outcomes | equivalence with an infix of failures |
| C159 | comparison function | exact characterisation |
| C160 | records as in C152, division by zero = `undef` | membership and uniqueness by induction |
| C161 | bounds as functions | code 0 implies no change |
| C162 | list of entries, index out of range = `none` | induction over the entries |
| C163 | unset variable = `none` | order |
| C164 | frequencies as integers, random numbers as a parameter | case analysis |
| C165 | unset = `none` | case analysis |
| C166 | model of C20 | theorems of C20 |
| C167 | model of C29 | theorems of C29 |
| C168 | model of C31 | theorems of C31 |
| C169 | model of C34 | theorems of C34 |
| C170 | model of C36 | theorems of C36 |
| C171 | model of C37 | theorems of C37 |
| C172 | model of C40 | theorems of C40 |
| C173 | model of C43 | theorems of C43 |
| C174 | model of C51 | theorems of C51 |
| C175 | model of C51 | theorems of C51 |
| C176 | model of C66 | theorems of C66 |
| C177 | model of C17 | theorems of C17 |
| C178 | model of C18 | theorems of C18 |
| C179 | model of C16 | theorems of C16 |
| C180 | model of C21 | theorems of C21 |
| C181 | model of C22 | theorems of C22 |
| C182 | model of C25 | theorems of C25 |
| C183 | model of C28 | theorems of C28 |
| C184 | model of C32 | theorems of C32 |
| C185 | model of C38 | theorems of C38 |
| C186 | model of C42 | theorems of C42 |
| C187 | model of C45 | theorems of C45 |
| C188 | model of C50 | theorems of C50 |
| C189 | model of C14 | theorems of C14 |
| C190 | model of C15 | theorems of C15 |
| C191 | model of C73 | theorems of C73 |
| C192 | model of C75 | theorems of C75 |
| C193 | model of C79 | theorems of C79 |
| C194 | model of C83 | theorems of C83 |
| C195 | model of C85 | theorems of C85 |
| C196 | model of C87 | theorems of C87 |
| C197 | model of C86 | theorems of C86 |
| C198 | model of C89 | theorems of C89 |
| C199 | model of C90 | theorems of C90 |
| C200 | model of C91 | theorems of C91 |
| C201 | model of C92 | theorems of C92 |
| C202 | model of C98 | theorems of C98 |
| C203 | model of C99 | theorems of C99 |
| C204 | model of C101 | theorems of C101 |
| C205 | model of C109 | theorems of C109 |
| C206 | model of C113 | theorems of C113 |
| C207 | model of C116 | theorems of C116 |
| C208 | model of C117 | theorems of C117 |
| C209 | model of C123 | theorems of C123 |
| C210 | model of C126 | theorems of C126 |
| C211 | model of C131 | theorems of C131 |
| C212 | model of C132 | theorems of C132 |
| C213 | model of C133 | theorems of C133 |
| C214 | model of C147 | theorems of C147 |
| C215 | model of C150 | theorems of C150 |
| C216 | model of C154 | theorems of C154 |
| C217 | model of C155 | theorems of C155 |
| C218 | model of C158 | theorems of C158 |
| C219 | model of C160 | theorems of C160 |
| C220 | arrays with unwritten entries, orderings and lists as state; `std::sort` a parameter | invariant over histories (inductive reachability), exact specification of the lists |
| C221 | as C220 | invariant, case analysis |
| C222 | as C220, count of lost arrays | case analysis |
| C223 | as C220 | refinement to the removal on lists |
| C224 | columns as a list, reading beyond the priorities and writing beyond the array = `none` | induction over the columns |
| C225 | sort as a parameter | permutation and sortedness |
| C226 | columns as a list | case analysis |
| C227 | rational parameters | arithmetic |
| C228 | state machine over the solver object, Ipopt's re-optimisation refuses another problem | invariant over all histories of calls |
| C229 | options as a partial map | case analysis over the names |
| C230 | options as a partial map | induction over the sequence |
| C231 | solvers as outcomes per problem, loop over the list | induction over the list of solvers |
| C232 | solvers as outcomes per problem | induction over the list of solvers |
| C233 | events with times | induction over the sequence of events |
| C234 | whole function, NLP and MIP solvers as oracles | invariant of the dive over all answers |
| C235 | loop with fuel | total width of the columns as measure |
| C236 | whole function, MILP and NLP solvers as oracles | exact condition |
| C237 | MILP data as a record | sum over the columns |
| C238 | cuts as state of the object | induction over the calls |
| C239 | cuts as state of the object | induction over the calls |
| C240 | handlers as a list with the class hierarchy | all cases of the exception |
| C241 | handlers as a list with the class hierarchy | all cases of the exception |
| C242 | pointers as options | induction over the operations |
| C243 | columns, rounding as a function with three facts | cases and integer arithmetic |
| C244 | as for C228 | as for C228 |
| C245 | as for C231 | as for C231 |
| C246 | as for C238 | as for C238 |
| C247 | as for C240 | as for C240 |
| C248 | as for C242 | as for C242 |
| C249 | as for C234 | as for C234 |
| C250 | as for C243 | as for C243 |
| C251 | solver kinds, history of calls, exceptions as verdicts | induction over the history |
| C252 | history of calls, arrays with the number of their allocation | invariant and induction over the history |
| C253 | bounds, known point, the loop of C29 with exceptions | induction over the candidates |
| C254 | as for C251 | as for C251 |
| C255 | as for C252 | as for C252 |
| C256 | as for C253 | as for C253 |
| C257 | boxes of integer variables, trees, node decision and strong branching of the other models, heuristics as oracles, Cbc's loop with oracles for all choices | invariant: better solutions are in open branches or in boxes dropped unsolved; measure for termination |
| C258 | as for C257 | as for C257 |
| C259 | LP over boxes and cuts, checker of C51, trees of C257, Cbc's loop with oracles for all choices | invariant: solutions below the threshold are in open branches or in boxes given up by repetition; measure for termination |
| C260 | as for C259 | as for C259 |
| C261 | as for C01 | as for C01 |
| C262 | as for C06 | as for C06 |
| C263 | as for C08 | as for C08 |
| C264 | as for C13 | as for C13 |
| C265 | as for C19 | as for C19 |
| C266 | as for C23 | as for C23 |
| C267 | as for C26 | as for C26 |
| C268 | as for C30 | as for C30 |
| C269 | as for C33 | as for C33 |
| C270 | as for C35 | as for C35 |
| C271 | as for C41 | as for C41 |
| C272 | as for C47 | as for C47 |
| C273 | as for C57 | as for C57 |
| C274 | as for C60 | as for C60 |
| C275 | as for C80 | as for C80 |
| C276 | as for C81 | as for C81 |
| C277 | as for C82 | as for C82 |
| C278 | as for C88 | as for C88 |
| C279 | as for C95 | as for C95 |
| C280 | as for C104 | as for C104 |
| C281 | as for C105 | as for C105 |
| C282 | as for C106 | as for C106 |
| C283 | as for C107 | as for C107 |
| C284 | as for C108 | as for C108 |
| C285 | as for C110 | as for C110 |
| C286 | as for C111 | as for C111 |
| C287 | as for C112 | as for C112 |
| C288 | as for C114 | as for C114 |
| C289 | as for C118 | as for C118 |
| C290 | as for C125 | as for C125 |
| C291 | as for C129 | as for C129 |
| C292 | as for C134 | as for C134 |
| C293 | as for C140 | as for C140 |
| C294 | as for C148 | as for C148 |
| C295 | as for C153 | as for C153 |
| C296 | as for C156 | as for C156 |
| C297 | as for C162 | as for C162 |
| C298 | as for C239 | as for C239 |
| C299 | as for C251 | as for C251 |
| C300 | as for C252 | as for C252 |
| C301 | as for C253 | as for C253 |
| C302 | the state of the framework (open nodes, best solution, records) with one step per solve, on top of C147 and C152-C161 | invariant over runs, with node_sound_partial of C153 for one node |
| C303 | as for C302 | invariant over runs |
| C304 | as for C302 | case analysis of one solve with return_code of C154 |
| C305 | as for C302 | weight of the open nodes, with resolve_cuts of C156 |
| C306 | the search of C259 with the cuts of C09 on a convex problem | the contracts of C259 are proved from convexity (C09) and the first-order conditions (C10, objOa_exact) |
| C307 | the loop of C32 with the cuts of C09 on a convex problem | as for C306 |
| C308 | as for C306 | contents of the cuts (C10, objOa_exact) |
| C309 | the search of C259 with the generators of C69 and C59 in front | their contracts are proved from convexity; then C306 |
| C310 | the search of C259 with the loop of C32 in front | trail of the loop by induction over passes; contracts from convexity; then C306 and C307 |
| C311 | function by function, asserts as `none` | polynomial identities; optimum by squares |
| C312 | loops of C32 and C259 with the cuts of C306 | `no_return` of C306; concrete problem, solvers arbitrary subject to being right |
| C313 | options, `default_log_level_`, level of the cache | induction over the calls |
| C314 | streams by their lines, `ReadFromStream` of Ipopt by its documented behaviour | induction over the lines |
| C315 | the search of C259 with the loop of C62 in front; the NLP of the distance by its first-order conditions | trail of the loop, distinct assignments by induction over passes; contracts from convexity; then C306 |
| C316 | list of options of C70 with the presets; reading under the prefix of the generator | lookup after insertion, case by case for the algorithms |
| C317 | loop and cuts of C32/C307 with relaxed right-hand sides; contract with a margin | invariant of the loop with the margin; weak duality with multipliers |
| C318 | search, checker and cuts of C259/C306 with relaxed right-hand sides | what a dropped box can hold; number of passes of the checker with repetitions |
| C319 | search, checker, NLP relaxations, ECP rounds and cuts of C309 with relaxed right-hand sides and integer tolerance | composition of the validity of the generators (C309) with the analysis of dropped boxes (C318) |
| C320 | OA decomposition at the root, search and checker of C310 with relaxed right-hand sides, MILP gap and integer tolerance | composition of C317 and C318; both ends of the decomposition |
| C321 | texts of the LaTeX and HTML tables as characters and tags; sections of the documentation | induction over the options; reading with a stack of open elements |
| C322 | prefix, options, algorithm kept, points of the linearizer and names of heuristics of a SepaSetup | induction over sequences of calls |
| C50 | `chooseVariable` on top of `doStrongBranching` | exact result for every answer of the solver |

## Which code is modelled

| area (`lean/Verif/`) | modelled source (below `src/`) |
|---|---|
| `Quad` | Algorithms/QuadCuts: BonTMatrix, BonQuadRow, BonQuadCut, cut management of BonTMINLP2Quad |
| `LinObj` | Interfaces/BonTMINLPLinObj |
| `Oa` | OA and Benders cuts of Interfaces/BonOsiTMINLPInterface, Interfaces/BonTMINLP2OsiLP (`extract`), Algorithms/QuadCuts/BonOuterApprox |
| `Strengthen` | Interfaces/BonCutStrengthener: `HandleOneCut`, disjunctions |
| `Fp` | Interfaces/BonTNLP2FPNLP and the switches of BonOsiTMINLPInterface |
| `Itf` | random start points, `resolveForCost`, `solveAndCheckErrors`, `initialSolve`/`resolve` status flags, BonTNLPSolver `zeroDimension`, BonTMINLP2TNLP setters, `check_solution`, `force_fractionnal_sol`, copies and assignments of the problem and the interface |
| `Div` | CbcBonmin/BonDiver (three trees) on an abstract heap |
| `Bab` | CbcBonmin/BonCbcNlpStrategy, BonCbcNode, the objects and the end of BonCbc `branchAndBound`, Algorithms/BonBonminSetup (`initialize…`, presets, checks), copies of Algorithms/BonBabSetupBase |
| `Branch` | Algorithms/Branching: `setupList`, random choice, strong branching loop, pseudo-costs, `chooseVariable`, BonLpBranchingSolver, BonCurvBranchingSolver with Interfaces/BonCurvatureEstimator |
| `Dec` | Algorithms/OaGenerators: `solverManip`, OA decomposition loop, feasibility checker, BonEcpCuts with the violation measures of the interface, BonFpForMinlp, BonOaNlpOptim, Algorithms/BonSubMipSolver (Cbc part), Algorithms/QuadCuts/BonLinearCutsGenerator |
| `Slv` | Filter/Ipopt warm start differences, `TMat2RowPMat`, BranchingTQP, bounds reader, `sos_kludge`, copies of SOS and branching information, C interface, Filter/BonFilterSolver (objects, common blocks, results), Filter/BonBqpdSolver and Algorithms/Branching/BonQpBranchingSolver (control flow) |
| `Heur` | CbcBonmin/Heuristics: dive loop and two selection rules, feasibility pump, MILP rounding (matrix, cut, end), matrix of dive-MIP, RINS, local branching, fix-and-solve |
| `Nway` | experimental/RobotBonmin: BonNWayObject, BonNWayChoose, RobotSetup `addNWays` |
| `Sepa` | experimental/Separable: the two HeuristicInnerApproximation classes, SepaTMINLP2OsiLP (tangents, points, sampling), BonOuterDescription |
| `Bcp` | experimental/Bcp: messages (BM_pack, BB_cut, BM_tm), lists of candidates, distributed strong branching and the decision on a node (BM_lp_branch); BCP itself is not modelled |
| `Ampl` | Interfaces/Ampl/BonAmplTMINLP: variable types and linearity, suffixes, linear part of the objective, result.  Assumed of AMPL: the order of the variables and the meaning of the counts (`Var.key`, `counts`), and that an integer view of a real suffix shows the words of its doubles |

Not modelled: option registration and file parsing (BonRegisteredOptions, the reading part of BonBabSetupBase), the AMPL evaluation functions (BonAmplTMINLP beyond variable types, suffixes and results), bqpd and filterSQP themselves, `experimental/` except RobotBonmin, Separable and Bcp, all third-party code (Cbc, Clp, Cgl, Ipopt), messages, timing, memory release except where a
theorem says so.


## Where the code and the claim disagree

Each item is a theorem with a concrete witness (or for all states); the wording is that of the theorem's comment.  The part of the
claim that does hold is the `_partial` theorem or exact characterisation listed in `MANIFEST.json`.

* **C01** `quadRow_ofCut_drops_constant` (Quad/Props.lean): Disagreement: for every cut with a nonzero constant the constructed row has the wrong value at every point, by exactly the constant.
* **C06** `full_storage_never_returns` (Quad/Props.lean): With `Full` storage and at least one entry, the rewriting loop never ends: after every number of iterations it is still running.
* **C06** `removeDuplicates_loses_last` (Quad/Props.lean): `removeDuplicates` drops the only entry of a one-entry matrix: the quadratic form becomes zero.
* **C06** `removeDuplicates_changes_form` (Quad/Props.lean): merging duplicates does not keep the quadratic form.
* **C06** `dup_one_too_few` (Quad/Props.lean): for every matrix: `nnz_` is the position of the last entry instead of their number, so one entry fewer is kept than there are positions (the last group in the order, or another one if the order is not that of storage).
* **C08** `epigraph_row0_query` (LinObj/Props.lean): A structure-only query of the objective row's gradient (NULL values) is undefined behaviour, and a values query never reports the number of elements.
* **C11** `cleanA_invalid` (Oa/Props.lean): at the level of one coefficient: the removal rule of `OuterApprox` pairs signs and bounds the wrong way round. Coefficient `5e-7 > 0` of a `≤` row, column in `[0,100]`, linearised at `0`: the inequality `5e-7·y ≤ 1e-5` (satisfied by `y = 20`) is turned into `0 ≤ 1e-5 - 5e-5`, satisfied by no point.
* **C11** `outer_linear_row_refuted` (Oa/ExtractProps.lean): for linear rows: `5e-7·y ≤ 5e-5` with `y ∈ [0,100]` linearised at 0 becomes `5e-7·y ≤ 1e-7`, which cuts off the feasible point `y = 100`.
* **C11** `outer_objective_refuted` (Oa/ExtractProps.lean): for the objective cut: objective `f(y) = 5e-7·y` (convex), `y ∈ [0,100]`, linearised at 0; the cut is `-α ≤ -5e-5`, which cuts off `(y, α) = (0, f(0)) = (0, 0)`.
* **C12** `benders_objective_refuted` (Oa/BendersProps.lean): with a nonlinear objective: minimise `(y-3)²` subject to `y ≤ 1` (declared nonlinear). At the optimum `x = 1`, `f = 4`, multiplier 4, the right-hand side accumulated from the row is overwritten, and the cut `-α ≤ -8` cuts off the optimal point `(1, f(1)) = (1, 4)` itself.
* **C12** `benders_small_refuted` (Oa/BendersProps.lean): for a `≥` row with a small coefficient: the row `5e-7·y ≥ 2.5e-5` (satisfied by `y = 100`, column `[0,100]`), linearised at the infeasible point 0 with multiplier -1, yields the cut `0 ≤ -2.5e-5`.
* **C13** `disjunction_general_integer_refuted` (Strengthen/Props.lean): for a general integer variable: the row `y ≤ 3` over `y ∈ {0,…,3}` with `x = 3/2`. The exact bounds of the two sides are 1 and 3, and the merged cut `-y ≤ -1` cuts off the feasible point `y = 0`.
* **C14** `local_branching_hessian_size` (Fp/Props.lean): (1): with the projection objective off and norm 2 (the default), as after switching a fresh problem to local branching, the wrapped problem is asked for fewer Hessian entries than it has, for every problem.
* **C14** `local_branching_objective_hessian` (Fp/Props.lean): (2): the same problem reports the original objective but multiplies its Hessian by `(1-λ)σ`, which is 0 by default.
* **C14** `cutoff_hessian_refuted` (Fp/Props.lean): (3): with the cutoff row added to the projection problem, the multiplier of that row weighs the Hessian of the original objective `f` although the row (`cutoff_row_refuted`) is the scaled distance, whose Hessian is not weighed by that multiplier.
* **C14** `fresh_hessian_drops_objective` (Fp/Modes.lean): but its Hessian leaves the objective out, whatever factor the solver asks for.
* **C14** `local_hessian_history` (Fp/Modes.lean): the Hessian of local branching depends on earlier switches: after a switch with the 1-norm it has the right size, on a fresh object (2-norm by default) it has not.
* **C15** `cutoff_row_refuted` (Fp/Props.lean): in the only place of the code base that turns the cutoff row on, the row does not involve the objective at all: it bounds the scaled distance by the cutoff.
* **C15** `cutoff_row_accepts_worse` (Fp/Props.lean): so there is a problem and a point with `f(x)` far above the requested cutoff which satisfies every row: `f(x) = 1000`, cutoff 1, at the target.
* **C15** `fp_jacobian_both` (Fp/Props.lean): with both rows on, the Jacobian of the second one is written beyond the end of the announced arrays, for every problem with a nonempty Jacobian and a nonempty target.
* **C15** `fp_linearity_swapped` (Fp/Props.lean): with both rows on, the linearity flags of the two rows are exchanged: the objective row (last but one) is declared linear.
* **C16** `randomPoint_negative_radius` (Itf/Random.lean): for negative suffix radii (they come unchecked from the user's model): a draw outside the bounds.
* **C17** `resolveForCost_rows_stale` (Itf/StatusProps.lean): for the row activities: they are those of the *last* attempt, whichever attempt was kept.
* **C18** `zeroDimension_crossed` (Itf/TnlpProps.lean): with a crossed pair of bounds the shortcut is still taken and the reported point violates the upper bound, whatever the problem.
* **C18** `zeroDimension_crossed_optimal` (Itf/TnlpProps.lean): and it is reported optimal although no point satisfies the bounds.
* **C18** `zeroDimension_nearly_fixed` (Itf/TnlpProps.lean): for nearly fixed variables: range 1e-5, the row `x ≥ 5e-6` satisfiable, verdict infeasible.
* **C19** `ipopt_abort_untruthful` (Itf/StatusProps.lean): but after an abort request every solve is reported as proven infeasible.
* **C19** `sticky_forever` (Itf/StatusProps.lean): once one failure was ignored, no later solve of any history is ever reported as abandoned, whatever the solver answers.
* **C19** `failure_reported_as_nothing` (Itf/StatusProps.lean): and this happens: with failures treated as infeasible, an `initialSolve` hitting the iteration limit returns normally and is reported neither abandoned nor infeasible nor optimal; all later failed solves too.
* **C19** `unreported_failures` (Itf/StatusProps.lean): a solve that did not converge, or ran out of time, returns normally and none of the status queries reports it, whatever the options.
* **C19** `timeLimit_recoverable` (Itf/StatusProps.lean): The test for the time limit in `isRecoverable` has no effect, because the status code is positive: a run out of time is treated as recoverable.
* **C20** `duals_alone_discard_start` (Itf/TnlpProps.lean): after setting only dual values, the solver starts from the zero vector instead of the user's start point, for every problem.
* **C20** `reset_leaves_dangling_duals` (Itf/TnlpProps.lean): dual values set, start point reset: the next query of a primal-dual start reads freed values.
* **C21** `diver_ndebug_loses` (Div/DiverProps.lean): with asserts compiled out, pushing a second unexplored node while one is waiting loses the first one: it is neither in the tree, nor handed out, nor deleted.
* **C21** `diver_endSearch_drops` (Div/DiverProps.lean): `endSearch` drops the waiting node; the best possible objective computed afterwards is then above the bound of an open node.
* **C22** `probed_full_loses` (Div/ProbedProps.lean): pushing an unexplored node while both slots are taken loses the node waiting in `nextOnBranch_` (with or without asserts).
* **C22** `probed_stop_crashes` (Div/ProbedProps.lean): stopping the dive on a node without a waiting brother is undefined behaviour. The history is the first two calls of a search with `stop_diving_on_cutoff` set.
* **C22** `probed_stuck` (Div/ProbedProps.lean): a waiting candidate that reached the cutoff is never handed out nor deleted by `bestNode`: the tree stays non-empty and returns NULL forever.
* **C23** `dfs_bound_best_loses` (Div/DfsProps.lean): for every state: in the phases CloseBound and LimitTreeSize every successful call of `bestNode` loses exactly one open node that is below the cutoff.
* **C23** `dfs_exhausted_crashes` (Div/DfsProps.lean): for every state of the phase FindSolutions (or before it with an empty dive): when no open node is below the cutoff, `bestNode` does not return NULL as the tree of Cbc does; it dereferences the null pointer.
* **C23** `dfs_zero_backtracks_aborts` (Div/DfsProps.lean): with `max_backtracks_in_dive = 0`, a value the option admits, the second node of the phase FindSolutions stops the program.
* **C23** `dfs_too_deep_aborts` (Div/DfsProps.lean): a node deeper than `max_dive_depth` stops the program (asserts on) instead of being put back on the heap, which is what happens with asserts off.
* **C23** `dfs_assign_depth` (Div/DfsProps.lean): assigning a dfs tree does not copy its depth limit.
* **C23** `dfs_top_enlarge_aborts` (Div/DfsProps.lean): in phase Enlarge, which fills the dive, `top` aborts as soon as the dive has a node, where `pop` works.
* **C24** `diver_bestPossible_capped` (Div/BoundProps.lean): for unusual bounds: when every open node has a bound above 1e100 the value 1e100 is reported, which is a lower bound but is attained by no node.
* **C25** `depth_one_failure_silent` (Bab/NodeStatusProps.lean): at depth 1 a failed node is never branched on, whatever the options: it is dropped silently, nothing is recorded.
* **C26** `final_status_error` (Bab/FinalProps.lean): a search abandoned by Cbc (status 2) on a new object is reported as FeasibleOptimal, without any solution.
* **C26** `final_status_second_run` (Bab/FinalProps.lean): an object that is used again keeps the solution of its earlier run: an infeasible problem is then reported FeasibleOptimal, with the old solution and the new objective value.
* **C46** `extract_misaligned` (Oa/ExtractProps.lean): (1): a ranged nonlinear row whose multiplier is zero is removed from the matrix but not from the bound arrays. Rows `y² ∈ [0, 100]` and `y ≤ 5`, linearised at 3: the LP gets the row `18 ≤ y ≤ 18`, which cuts off `y = 1`.
* **C46** `extract_keeps_removed` (Oa/ExtractProps.lean): (2): a coefficient that is removed from the right-hand side is left in the matrix. Row `-5e-7·y ≤ 0.5` (declared nonlinear), `y ≤ -1e6`, linearised at the feasible point `-1e6`, which the resulting row cuts off.
* **C46** `extract_linear_constant` (Oa/ExtractProps.lean): (3): the bounds of linear rows are copied without the row's constant term. Row `y + 1 ≥ 1`, declared linear: the LP gets `y ≥ 1`, which cuts off `y = 0`.
* **C47** `filter_depends_on_log_level` (Oa/Props.lean): The silent-mode filter: with log level 0 a cut that is not violated at the second point is returned all the same, with a positive log level it is not.
* **C48** `roundAndCheck_inverted` (Itf/TnlpProps.lean): `round_and_check` declares the solution infeasible exactly when the rounded point is feasible.
* **C49** `forceFractional_fixed` (Itf/TnlpProps.lean): every fixed integer variable is moved outside its bounds.
* **C27** `setupList_priorities_mixed` (Branch/SetupProps.lean): beyond the first `numberOnList_` entries the list is not ordered by priority. With one candidate allowed and objects of priorities 1, 1, 2 the object of priority 2 comes before the second object of priority 1.
* **C27** `setupList_loses_and_repeats` (Branch/SetupProps.lean): with the second list (default `setup_pseudo_frac` 0.5, a positive `number_before_trust_list`): a candidate is lost and another one is listed twice. Object 2 is not trusted, it replaces object 1 in front and is still among the others.
* **C27** `setupList_nonpositive` (Branch/SetupProps.lean): for usefulness that is not positive: the test for a free slot is "usefulness above 0", so object 1, more useful than object 0 and of the same priority, is left out although a second candidate is allowed.
* **C27** `setupList_no_strong` (Branch/SetupProps.lean): when no strong branching is allowed at all: the list has a hole (index -1) within its first `numberUnsatisfied_` entries, and the object in front is not the most useful one.
* **C27** `usefulness_negative` (Branch/Pseudo.lean): Observations can be negative (the objective of a nonconvex relaxation may improve after branching): then the usefulness is negative.
* **C27** `setupList_second` (Branch/Second.lean): a whole run with two objects in the second list, both of them outside the first list: they are put in front of it, the entries of the first list that make room are dropped from it, and they appear twice in the list while the dropped ones are lost.
* **C27** `untrusted_missed` (Branch/Second.lean): The loop reads on after the end of the first list: an object there, which was put aside and is not trusted yet, is taken for one of the list and is not mixed in, although the setting asks for it. With one more object, which is satisfied, the slot after the list is empty and the same object becomes the first candidate.
* **C28** `random_mixes_priorities` (Branch/Random.lean): (1): an object of priority 2 is chosen although one of priority 1 is violated.
* **C28** `random_loses_best` (Branch/Random.lean): (2): with priorities 1, 3, 2 the object of best priority is not even on the list, so it is never chosen.
* **C28** `random_infeasible_satisfied` (Branch/Random.lean): (3): an object that makes the node infeasible (infeasibility `COIN_DBL_MAX`) only ends the list; if it comes first, the list is empty, which the caller reads as "all satisfied" (code 1).
* **C30** `pseudo_reset` (Branch/Pseudo.lean): when the number of objects grows (SOS objects added later): all records are lost, whatever the history.
* **C29** `strong_code_overwritten` (Branch/Strong.lean): a node proven infeasible by its first candidate is not reported as such when the next candidate has one infeasible side (the `break` is commented out at line 919).
* **C29** `strong_lookAhead_aborts` (Branch/Strong.lean): with `number_look_ahead` set, below the root, a first candidate with a side that is not solved to optimality (infeasible, unfinished, or a solution that is not trusted) stops the program: the assertion at line 932.
* **C50** `choose_untested_wrong` (Branch/Choose.lean): with both candidates trusted, the first of the list is chosen although the other scores higher, and it is branched in the direction that is best for the other one.
* **C50** `choose_nan` (Branch/Choose.lean): not a number): at the root a candidate with observations on the up side only is neither strong-branched nor ever the best trusted candidate, whatever its up costs: its estimate is 0/0.
* **C50** `choose_code_four_wrong` (Branch/Choose.lean): (code 4, "no other candidates"): three unsatisfied objects; the first is infeasible on both sides, the second on one, the third is open on both. The sides are counted, three in all, and the code is 4; moreover the node, proven infeasible, is not reported infeasible.
* **C31** `manip_cutoff_kept` (Dec/Manip.lean): for the cutoff: a solver without cutoff (`DBL_MAX`) keeps the cutoff of the sub-problem after `restore`.
* **C31** `manip_log_lost` (Dec/Manip.lean): for the log level: it is 0 afterwards, whatever it was.
* **C31** `manip_deleted_rows` (Dec/Manip.lean): Deleted rows are not noticed if as many were added: the rows before the saved count are not compared. If fewer are left, the size of an array is negative.
* **C31** `refix_relaxes_again` (Dec/Help.lean): `refixIntegers` refuted as an inverse of `relaxIntegers`: every integer column ends up relaxed twice.
* **C43** `intFeas_paths_differ` (Dec/Help.lean): tolerance 1e-6, value 2.0005: accepted when integrality is stored in objects, rejected when it is stored in column types.
* **C43** `intFeasObj_accepts_all` (Dec/Help.lean): with a tolerance of 5e-4 or more (`integer_tolerance` may be up to 0.5) and objects, every point is accepted as integral.
* **C32** `oa_zero_aborts` (Dec/OaLoop.lean): (assert): an NLP whose optimal value is 0 stops the program, whatever the cutoff increment: the new cutoff is not below 0 (line 150).
* **C32** `oa_stuck` (Dec/OaLoop.lean): (termination): once the number of solutions has reached `solution_limit`, no MILP is solved any more but the loop goes on as long as the LP solution is integral; each pass solves the NLP for the *old* MILP solution again. Here it never ends (short of the time limit).
* **C32** `oa_failed_nlp_unsound` (Dec/OaLoop.lean): (soundness without the contract): the NLP of the first assignment fails (it is not infeasible: its point has value 3), so its cuts are generated at a meaningless point; the LP then proposes the same integers, and the loop answers with the bound 1e50, above the cutoff 10, although the point found feasible by nobody has value 3.
* **C51** `fc_rows_repeat` (Dec/Checker.lean): cuts are installed in the LP several times in the same call (here 0 three times, 1 twice).
* **C51** `fc_benders_early` (Dec/Checker.lean): Benders cuts replace outer approximation cuts although not more than `generate_benders_after_so_many_oa` cuts were generated: with the limit 2, two cuts were generated in two passes, but the count is already 3 and the third pass generates a Benders cut.
* **C38** `filter_roundtrip_fails` (Slv/Warm.lean): for arrays of different lengths: with a shorter old array (e.g. the empty warm start of `getEmptyWarmStart`) the difference reads outside it, with a longer one the old tail stays.
* **C38** `filter_flush_dangles` (Slv/Warm.lean): after `flushPoint`: with a non-empty array the object cannot be copied, flushed again or destroyed without undefined behaviour (the freed pointer is kept).
* **C38** `filter_empty_ws_used` (Slv/Warm.lean): ... so the empty warm start of the filterSQP interface is taken for a valid one: it is stored and warm starting is switched on with no point, instead of going back to the starting point of the problem.
* **C38** `ipopt_roundtrip_empty` (Slv/Warm.lean): for Ipopt: from the empty warm start the flag stays set, so the result still says it is empty.
* **C40** `tqp_final_rows_wrong` (Slv/Tqp.lean): for the row activities: the value handed to the NLP as constraint values is `J d`, without `g(x)`; at the zero displacement of the example it says 0 while the constraint has the value 2.
* **C42** `sos_empty_set` (Slv/Sos.lean): for an empty set: the set after it is shifted by one and keeps decreasing weights; an empty set at the end reads outside the array.
* **C42** `sos_last_empty` (Slv/Sos.lean): a last empty set reads outside the array, whatever the sets before it.
* **C42** `sos_absorbed` (Slv/Sos.lean): in floating point: equal weights from 2^20 on stay equal.
* **C42** `sos_absorbed_all` (Slv/Sos.lean): for all large weights: two equal weights from `2^20` on are left equal.
* **C41** `read_newline_undefined` (Slv/Reader.lean): for text files as editors write them: when the last line is terminated (one line end or more), the last line is counted twice and the program goes on to use an uninitialised index and bound — for every well-formed file.
* **C41** `read_empty_terminates` (Slv/Reader.lean): for a missing or an empty file: the program is terminated by `throw;` without an exception.
* **C41** `apply_widens` (Slv/Reader.lean): a bounds file can also widen a bound.
* **C44** `sos_copy_destroys` (Slv/Copies.lean): for every `SosInfo` with at least one set: the copy holds nothing but indeterminate values, and the types, priorities, starts, indices and weights of the source are lost.
* **C44** `sos_copy_not_faithful` (Slv/Copies.lean): the whole source is lost when it is copied — no entry of the weights has a determinate value afterwards.
* **C44** `branch_copy_undefined` (Slv/Copies.lean): with any other content of the storage the copy constructor deletes a wild pointer, whatever is copied.
* **C44** `radius_null_undefined` (Slv/Copies.lean): passing NULL after an array (to take the radii back) leaves a pointer to deleted storage, which is deleted once more, at the latest on destruction.
* **C45** `create_drops_info` (Slv/CInterface.lean): whatever SOS and branching information is passed in, the problem is the same.
* **C45** `solve_info` (Slv/CInterface.lean): a problem that has been created reaches branch-and-bound only if two fields nothing was stored in happen to be NULL, and then without SOS and branching information; otherwise the behaviour is undefined.
* **C52** `hasGeneral_wrong` (Slv/Copies.lean): an integer variable fixed at 0 or at 1 counts as general, and a variable typed BINARY never does, whatever its bounds.
* **C53** `solve_delivers_nothing` (Slv/CInterface.lean): whatever solution branch-and-bound finds, no array of the caller changes and the status is 0 — also when no solution exists, when it fails, and when the arrays are missing.
* **C53** `solve_solution_lost` (Slv/CInterface.lean): a case in which a solution exists and is not delivered.
* **C33** `dive_tolerance_grows` (Heur/DiveProps.lean): for the tolerance 1e-6: the relaxation's answer violates a row by 1, the tolerance becomes 1, and a point violating the row by 1 is returned, with assertions compiled in.
* **C33** `dive_leaves_bounds` (Heur/DiveProps.lean): for solvers whose successful answers may leave the bounds: the dive then widens a bound, and the point 2 is returned for a column with bounds [0, 1].
* **C34** `colLengths_by_rows` (Heur/SelectProps.lean): in general: with the Jacobian stored by rows the number recorded is not the number of entries, and a column without entries is read uninitialised.
* **C34** `selVectorLength_out_of_bounds` (Heur/SelectProps.lean): for the vector length rule: a column with no allowed rounding is selected nevertheless (and rounded down below its lower bound), although another fractional column can be rounded.
* **C35** `roundPt_truncates` (Heur/PumpProps.lean): coefficients are truncated, so that `3/2 x0 + 3/2 x1 = 1` passes for a sum-to-one row; the point (1/3, 1/3), which satisfies it, is rounded to (1, 0), which does not.
* **C35** `roundPt_overlap` (Heur/PumpProps.lean): for rows with common columns: from a point satisfying `x0 + x1 = 1` and `x1 + x2 = 1` the rounding gives (1, 1, 0).
* **C35** `roundPt_out_of_bounds` (Heur/PumpProps.lean): for columns of a sum-to-one row whose bounds exclude 1: the point (1/2, 0, 1/2), with column 1 fixed at 0, is rounded to (0, 1, 0).
* **C35** `roundRow_release_zero` (Heur/PumpProps.lean): Without assertions a position beyond the row leaves all columns at 0.
* **C36** `noGood_removes_more` (Heur/MilpProps.lean): the cut of (1, 0) also removes (1, 1); the cut of (0, 0) removes every point; and a MILP answer with a fractional column, for which no NLP is solved, still leaves a cut: that of (1, 1/2) removes (1, 0) and (1, 1).
* **C37** `rinsFix_out_of_bounds` (Heur/Local.lean): for large tolerances: with a tolerance of 1/5 a column at 0 in a node where it is fixed at 0 is fixed at the incumbent's 1.
* **C55** `milp_matrix_by_rows` (Heur/MilpProps.lean): for a Jacobian given by rows: the entry (1, 0) with value 3 gets the value 2 of entry (0, 1).
* **C57** `lb_general_integers` (Heur/Local.lean): for general integers: the heuristic is meant to be off (`setWhen(0)`), but `solution` does not look at `when_` and runs; the row it adds for an incumbent value of 3 then reads 1 - x ≤ 0: it accepts x = 100 and is violated by x = 0.
* **C57** `fixSolve_leaks` (Heur/Local.lean): when too few objects are satisfied the clone of the solver is never freed.
* **C57** `fixSolve_deletes_twice` (Heur/Local.lean): when the search is made, the clone is deleted twice.
* **C58** `lp_down_branch_infeasible` (Branch/LpSolver.lean): the branch `x ≤ 4` of an integer variable in `[0, 10]` with constraint `x ≥ 2` is declared infeasible, although `3` lies in it: the LP was solved with `x ≤ 0`.
* **C58** `lp_ecp_undefined` (Branch/LpSolver.lean): with cutting rounds switched on, probing a branch whose LP is solved is undefined behaviour.
* **C60** `consViol_misses` (Dec/Ecp.lean): without the provisos: a linear row and a side of size `1e10` are not measured.
* **C61** `fp_objective_wrong` (Dec/FpMinlp.lean): at the NLP solution `x = 1` the objective prefers `y = 0`, at distance 1, to `y = 1`, at distance 0.
* **C62** `fp_claim_wrong` (Dec/FpMinlp.lean): after one pass the time is up; the pump has found the value 3 and claims (with `fp_pass_infeasible`) that nothing better than `2.97` exists, although a point of value 1 does.
* **C62** `fp_claim_wrong_limit` (Dec/FpMinlp.lean): the same happens at the limit on solutions.
* **C63** `lp_round_changes_objective` (Branch/LpSolver.lean): after a round of probing the node, the objective value of the interface is that of the last branch and not that of the node.
* **C64** `ecp_stale` (Dec/Ecp.lean): for the returned values: a point with a small violation returns the values of an earlier call (or uninitialised ones), and so do skipped calls.
* **C64** `ecp_own_aborts` (Dec/Ecp.lean): for `doEcpRounds` with assertions: as soon as a second round is to be made, the assertion `lp_ == NULL` fails.
* **C65** `fp_zero_aborts` (Dec/FpMinlp.lean): a solution of value 0 violates the assertion `cutoff < ub`.
* **C66** `hyb_depth_zero` (Dec/Hybrid.lean): for the documented meaning of `nlp_solve_max_depth 0` ("never solve the NLP relaxation", 186-187): it is solved at the root.
* **C66** `hyb_throw_leaves_bounds` (Dec/Hybrid.lean): when the NLP solver fails, the exception leaves the NLP with the bounds of the node.
* **C67** `sub_overflow` (Dec/Hybrid.lean): without the proviso: a column added after a solution was found makes the next solution overflow the buffer.
* **C68** `lc_removes_other` (Dec/Hybrid.lean): a cut that was there before (100) is removed and a slack one (4) stays.
* **C70** `fpump_request_ignored` (Bab/Options.lean): for the feasibility pump.** The user asks for the feasibility pump on a problem with general integers; line 543 does not even read the option and no pump is installed.
* **C70** `most_fractional_sub_solver_strong_branches` (Bab/Options.lean): for the solvers inside heuristics.** Most fractional branching requested for the solver of RINS still makes 1000 strong branching candidates, because line 394 writes `bonmin.` names whatever the prefix is.
* **C71** `oa_preset_loses_to_prefixed_value` (Bab/Options.lean): for B-OA.** The preset `nlp_solve_frequency = 0` of B-OA is stored under the bare name, so an (unlocked) value under `bonmin.nlp_solve_frequency` wins in B-OA, while the same value is overwritten in B-QG, B-iFP and B-Ecp.
* **C73** `pseudocosts_silently_ignored` (Bab/Objects.lean): (pseudo-costs).** If pseudo-costs are the only branching information the user gives, the rules on Osi objects silently ignore them: line 783 returns when there *are* pseudo-costs.
* **C73** `hyb_loses_priorities_and_sets` (Bab/Objects.lean): (outer approximation with Osi rules).** `setPriorities` and `addSos` put the user's priorities and special ordered sets on the nonlinear solver, Cbc takes the objects of the linear one: the priorities are lost and the sets are never enforced.
* **C74** `copies_have_no_heuristics` (Bab/Copies.lean): (heuristics).** No copy ever has a heuristic: the loops of lines 110 and 162 run over the wrong list.
* **C74** `copy_shares_objects` (Bab/Copies.lean): (extra objects).** Original and copy own the same extra objects: destroying both deletes every one of them twice.
* **C74** `copy_uninitialised_crashes` (Bab/Copies.lean): (copy without a continuous solver).** Copying a setup that has a message handler but no continuous solver yet uses a null pointer.
* **C74** `copyWith_outer_approximation_crashes` (Bab/Copies.lean): (outer approximation setups).** Copying any outer approximation setup that has a message handler (every initialised one has) with another interface uses a null pointer at line 155.
* **C74** `copy_of_copy_crashes` (Bab/Copies.lean): (copy of a copy).** A plain copy of a branch-and-bound setup has two different solvers; so copying that copy with another interface uses a null pointer, while the original can be copied.
* **C74** `interface_setup_copies_wrongly` (Bab/Copies.lean): (initialisation from an interface).** `initialize(nlpSi)` does not record that the algorithm is branch-and-bound: a copy with another interface then stops at an assertion, or, without assertions, replaces the continuous solver by a linear relaxation.
* **C75** `clean_throws_while_enlarging` (Div/Compare.lean): In the initial `Enlarge` mode, cleaning the tree with two open nodes throws "Unknown mode for comparison" (for instance when the search stops on a limit, or a solution is found, during the first levels of the tree).
* **C75** `cmp_copy_default_crashes` (Div/Compare.lean): (copies).** Copying a default-constructed comparison calls `clone()` on null pointers.
* **C79** `file_solution_null` (Ampl/Output.lean): with the option `file_solution` an infeasible problem makes the program read a NULL pointer.
* **C79** `interrupt_code_undocumented` (Ampl/Output.lean): the documentation gives 421 and 410 for runs interrupted by the user too; the codes are 422 and 411. It does not list 300 either.
* **C80** `linearPart_overrun` (Ampl/Vars.lean): with one variable, nonlinear both in a constraint and in the objective, the function writes behind the end of the array.
* **C80** `linearPart_loses` (Ampl/Vars.lean): with two variables, one nonlinear in a constraint only and one in the objective only, and two linear ones, a coefficient of the objective is lost.
* **C81** `both_objectives_marked` (Ampl/Suffix.lean): when the first two objectives are marked, the second one is minimised and also gives the upper bounds, although a third one is not marked.
* **C81** `unknown_id_taken` (Ampl/Suffix.lean): an id that no variable carries is not detected; variable 0 is taken when it occurs in the constraint.
* **C81** `duplicate_id_taken` (Ampl/Suffix.lean): when two variables carry the same id the later one is taken silently.
* **C81** `direction_misread` (Ampl/Suffix.lean): the direction of branching is declared as a real suffix and read as an integer one. With the usual layout of doubles, where 1.0 consists of the words 0 and 1072693248, the direction given for the first variable is lost and the second variable gets one.
* **C81** `foreign_handler_undefined` (Ampl/Suffix.lean): when the caller passes its own suffix handler, the readers use a NULL pointer.
* **C82** `unbounded_is_infeasible` (Slv/FilterRun.lean): for unbounded problems: code 1 (unbounded, as the code itself says at cpp:587) is returned as proven infeasible.
* **C83** `rho_init_ignored` (Slv/FilterRun.lean): the initial trust region: the option `rho_init` never reaches filterSQP; every solve of every history begins with radius 10.
* **C83** `reoptimize_foreign_tolerance` (Slv/FilterRun.lean): for the tolerances: an object whose option `eps` is 1 solves again after another object (with `eps` 2) has been used, and gets the tolerance of that one.
* **C83** `null_keeps_warm` (Slv/FilterRun.lean): warm starts: after `setWarmStart(NULL)` the solver still begins from the warm start set before.
* **C83** `null_warm_used` (Slv/FilterRun.lean): An instance of it: the solve after clearing the warm start begins at the point 4 of the old one (with `ifail` −1), not at the problem's own point 2.
* **C83** `clone_reoptimize` (Slv/FilterRun.lean): A copy has no cache: solving again with it before a first solve dereferences a null pointer, unless a warm start has been set.
* **C83** `resized_reoptimize` (Slv/FilterRun.lean): A repeated solve of a problem whose size changed in between (a cut was added) is undefined.
* **C84** `resolve_drops_warm` (Slv/FilterRun.lean): `OsiTMINLPInterface::resolve` gives the warm start to the solver and then, as the problem has no initial multipliers (nothing sets them for filterSQP), disables it, which makes the solver forget it: the solve is a cold one from the problem's starting point.
* **C84** `resolve_ignores_warm` (Slv/FilterRun.lean): An instance: the warm start at 4 is given, the solve begins at the problem's point 2.
* **C85** `multiplier_lost` (Slv/FilterRun.lean): without exact equality: the variable is one billionth away from its bound, the multiplier is dropped and stationarity is lost.
* **C86** `qp_unbounded_is_infeasible` (Slv/BqpdRun.lean): for unbounded QPs: code 1 (unbounded, cpp:444-446) is returned as proven infeasible.
* **C86** `candidate_unbounded_closed` (Slv/BqpdRun.lean): With an unbounded QP the candidate is reported infeasible (and strong branching then closes the branch).
* **C86** `stale_problem_solved` (Slv/BqpdRun.lean): the flag is not cleared by the cold solve, so the cache of the old problem is kept and problem 1 is solved once more instead of problem 2.
* **C87** `active_constraints_reversed` (Branch/Curv.lean): the constraints taken as active are those the step into the branch moves away from; those it pushes against are never taken (unless they are equalities). Here `s` is the step into the branch, or its projection onto the equality constraints.
* **C87** `push_ignored` (Branch/Curv.lean): The up branch pushes against the active constraint but nothing is fixed; the down branch moves away from it but is held back by it.
* **C87** `no_constraints_undefined` (Branch/Curv.lean): for a problem without constraints the entry before the array of residuals is read.
* **C87** `bad_solution_accepted` (Branch/Curv.lean): a direction outside the null space is rejected only if its residual is positive (no absolute value is taken).
* **C87** `lambda_flag_wrong` (Branch/Curv.lean): the Hessian is requested with the flag "multipliers unchanged" although they changed since the last request.
* **C88** `copy_after_cut_undefined` (Itf/TnCopies.lean): after a solve, once a cut was added, copying reads past the activities of the solution.
* **C88** `copy_after_reset_undefined` (Itf/TnCopies.lean): resetting the starting point leaves the pointer to its multipliers; copying then computes an address in an empty array.
* **C88** `assign_keeps_old` (Itf/TnCopies.lean): assigning a problem that was not solved and has no constraints keeps the solution, the multipliers and the constraints of the old one.
* **C88** `assign_size_undefined` (Itf/TnCopies.lean): assigning a solved problem to a solved one with fewer variables writes past its solution (an assertion fails first if compiled in).
* **C88** `cuts_zero_start` (Itf/TnCopies.lean): adding cuts (even none) before a starting point is set replaces the problem's starting point by zero.
* **C88** `lin_copy_undefined` (Itf/TnCopies.lean): a copy of a problem with a linear objective uses a constant that was never set.
* **C89** `copy_status_lost` (Itf/ItfCopies.lean): the status of a copy is memory never written, although the copy claims to have been solved and shows the solution.
* **C89** `copy_retries_again` (Itf/ItfCopies.lean): the extra solves meant for the root are due again in every copy; the original no longer does them.
* **C89** `copy_linearizer_lost` (Itf/ItfCopies.lean): a copy has no linearizer.
* **C89** `assign_problem` (Itf/ItfCopies.lean): assignment gives the problem as constructed: changed bounds, starting point and solution of the source are lost.
* **C89** `assign_solution_lost` (Itf/ItfCopies.lean): after assigning a solved interface the solution shown is an empty array.
* **C89** `assign_incoherent` (Itf/ItfCopies.lean): assignment makes a solve work on the original problem although the mode is still "feasibility"; a copy of the result works on the other problem.
* **C89** `assign_empty_stale` (Itf/ItfCopies.lean): assigning an empty interface leaves the old problem to be solved.
* **C89** `assign_copy_throws` (Itf/ItfCopies.lean): once the Jacobian of an interface was set up, no copy of it can be assigned: an exception is thrown.
* **C89** `assign_outer_overflow` (Itf/ItfCopies.lean): after assigning to a new interface an interface whose Jacobian was set up, the arrays for the cuts are too short as soon as the model has two nonlinear rows.
* **C90** `dynamic_ignored` (Itf/Params.lean): the options about the dynamic decrement have no effect: two option lists that differ only in them are read alike.
* **C90** `decrement_never_computed` (Itf/Params.lean): whatever options are set and read and whatever solves are made, the decrement is the one set by a call of `setNewCutoffDecr`, never a computed one.
* **C90** `strengthener_stays` (Itf/Params.lean): once cut strengthening was switched on, setting the option back to "none" and reading it again does not switch it off.
* **C90** `filter_default_leaks` (Itf/Params.lean): the value that filterSQP uses by default is written into the option list; another solver that reads the list later takes it as given by the user.
* **C90** `resolve_ignores_eps` (Itf/Params.lean): `resolve` with a warm start does not use the option `resolve_on_small_infeasibility`.
* **C90** `mean_counts_unsolved` (Itf/Params.lean): a solve that stopped at a time limit counts as the value 0 in the mean.
* **C90** `variance_skips_zero` (Itf/Params.lean): optimal values equal to 0 are left out of the variance.
* **C90** `negative_mean` (Itf/Params.lean): with a negative mean the variation always counts as small, and the sign of the decrement changes.
* **C90** `threshold_unused` (Itf/Params.lean): the threshold member is not used.
* **C90** `all_failed_nan` (Itf/Params.lean): if no extra solve gives a value the decrement is not a number.
* **C91** `recovered_then_refused` (Slv/Starts.lean): a failed solve that was recovered from leaves the solver in warm start mode; without warm starts and without multipliers put in before, the next solve asks for multipliers the problem does not have and cannot start.
* **C91** `node_retry_moves_start` (Slv/Starts.lean): with retries for better optima at the nodes the point put there is replaced: the next node starts at the last random point.
* **C91** `point_lost_after_failure` (Slv/Starts.lean): a point put there without multipliers does not survive the treatment of a failure: the next solve does not start there.
* **C91** `empty_warm_start_counts` (Slv/Starts.lean): the warm start taken before any solve, put back, counts as a warm start: with assertions `resolve` stops, without them it starts at the point put there before, not at the user's.
* **C91** `reset_keeps_multipliers` (Slv/Starts.lean): forgetting the point put there (a null pointer) keeps the note that multipliers were given; if the solver warm starts it is given multipliers from beyond the array.
* **C92** `fixed_unbounded_shifts` (Slv/Interior.lean): a variable without upper bound that becomes fixed shifts the multipliers of the upper bounds: the next variable gets those of the one after it, or something from beyond the vector.
* **C92** `fixed_unbounded_reads_past` (Slv/Interior.lean): and with the last variables there is nothing to read.
* **C92** `new_bound_misaligns` (Slv/Interior.lean): branching on a variable without upper bound gives it one; it takes the multiplier of the next variable, which is left without.
* **C92** `not_fourth_latest` (Slv/Interior.lean): the iterate taken is not the fourth latest, as announced, but the fifth.
* **C93** `names_wrong` (Slv/Diff.lean): a feasible point found is reported as a limit on iterations, and a limit on the time has no name: asking for it throws.
* **C93** `tree_failure_succeeded` (Slv/Diff.lean): when the tree gives up after too many failures, whatever Ipopt's status was, the error reads "Solve succeeded".
* **C93** `strong_failure_acceptable` (Slv/Diff.lean): and in strong branching "Solved to acceptable level".
* **C93** `bounds_file_unreadable` (Slv/Diff.lean): no bounds file written for a failed problem can be read by Bonmin's own reader: if bounds differ it uses uninitialised numbers, if none differ the program ends.
* **C93** `labels_clash` (Slv/Diff.lean): a variable with both bounds changed gives two constraints of the same name in the AMPL file.
* **C93** `start_without_multipliers` (Slv/Diff.lean): a point put in without multipliers is written as if it had them; reading it back uses uninitialised numbers.
* **C93** `start_wrong_size` (Slv/Diff.lean): without a point put in (the failure of a first solve) no start file is written, and a file for another problem with fewer variables is read beyond its end.
* **C94** `stale_point` (Bab/AltObj.lean): A second search on the same setup (bounds changed so that the problem is infeasible, say) that finds nothing returns the point of the first search and reports it as optimal.
* **C94** `early_copy_lost` (Bab/AltObj.lean): A copy of the interface made before the search (by a heuristic, say) does not take part: its better point is lost.
* **C94** `no_objects_ignored` (Bab/AltObj.lean): If no object of the interface is a branching object of the search, the solution and the objective value returned are those of the continuous solver: the alternative objective is ignored.
* **C94** `sets_ignored` (Bab/AltObj.lean): When the interface carries no objects only integrality is checked: a point violating a special ordered set is recorded (here both variables of a type 1 set are positive), which the objects would have excluded.
* **C94** `failed_value_read` (Bab/AltObj.lean): A user function that fails (returns false without setting the value) at an integer point makes the search undefined: the return value is not looked at.
* **C95** `not_available` (Bab/AuxNlp.lean): Passing a solution does not make it available: `nlpSolution()` is null and `nlpObjValue()` infinite until `setHasNlpSolution(true)` is called.
* **C95** `left_over` (Bab/AuxNlp.lean): After a shorter solution the array is as long as before: the entry past the objective value is left over from the previous solution, and `numcols_` is not the number of variables of the solution.
* **C95** `empty_solution_copy` (Bab/AuxNlp.lean): With assertions, an object holding the solution of a problem without variables cannot be copied; without, it can.
* **C95** `assigned_twice_freed` (Bab/AuxNlp.lean): Assignment copies the pointer: the array is freed twice when both objects are destroyed, and a solution passed to one shows in the other.
* **C96** `short_stub_missed` (Slv/Names.lean): The model `x.nl` has its names looked up in `x.nl.col`.
* **C96** `short_names_undefined` (Slv/Names.lean): Any file of at least two names whose first name is short (up to 15 characters) makes the reader use freed memory.
* **C96** `names_not_used` (Slv/Names.lean): The names read are never given to the interface: `copyNames` assigns in the wrong direction, so the names of the columns stay what they were, whatever the file says.
* **C96** `unknown_is_first` (Slv/Names.lean): The index of a name that does not occur is 0, as for the first variable.
* **C96** `duplicate_aborts` (Slv/Names.lean): A name that occurs twice fails an assertion.
* **C96** `second_file` (Slv/Names.lean): A reader used for a second file keeps the names of the first one, and gives the new names no index.
* **C97** `multipliers_read` (Ampl/SolFile.lean): A file with multipliers: they are read in place of the values.
* **C97** `limit_solution_lost` (Ampl/SolFile.lean): The solution found when a limit is reached (or after an interruption) is not read: the message has more than one word, and the point used is zero.
* **C97** `missing_file_zero` (Ampl/SolFile.lean): A file that does not exist is not noticed: the point used is zero.
* **C97** `fewer_values` (Ampl/SolFile.lean): A file of another problem with fewer variables: the array is read behind its end.
* **C97** `unbounded_aborts` (Ampl/SolFile.lean): The file of an unbounded problem fails an assertion (there is no colon after the name), and so does an empty one.
* **C97** `cut_off_undefined` (Ampl/SolFile.lean): A file cut off after the word `Options` leaves the number of values unset.
* **C98** `cbc_par_throws` (Dec/MilpChoice.lean): Choosing Cbc_Par always ends with an exception: the strategy reads `probing_cuts`, which is not registered.
* **C98** `defaults_ignored` (Dec/MilpChoice.lean): Were it registered (here with default 0), the options not given would count as -99 and not as their defaults: Gomory cuts only at the root in place of every 5 nodes, and cover cuts although they are off.
* **C98** `others_ignored` (Dec/MilpChoice.lean): The options `2mir_cuts`, `lift_and_project_cuts` and `reduce_and_split_cuts`, declared valid for Cbc_Par, have no influence.
* **C98** `hundred_installs` (Dec/MilpChoice.lean): Frequency 100, documented as no cuts at all, installs the generator.
* **C99** `declaring_removes` (Itf/RegOpts.lean): Declaring an option of which nothing was told valid for one algorithm makes it invalid for all others.
* **C99** `category_shared` (Itf/RegOpts.lean): An option is listed with the kind its category was last registered with, and not with that of its own registration.
* **C99** `doc_leaves_out` (Itf/RegOpts.lean): The documentation printed leaves out the options `nlp_solve_frequency` and others: their category (BonOaNlpOptim.cpp:178) is named otherwise.
* **C99** `int_min_changed` (Itf/RegOpts.lean): An integer default of INT_MIN is written as another number.
* **C99** `dbl_max_changed` (Itf/RegOpts.lean): A default DBL_MAX (no limit) is written as a smaller or larger number, whatever the way of rounding to six digits.
* **C99** `empty_default_shifts` (Itf/RegOpts.lean): An option whose default is the empty string (`output_file` of Ipopt) takes the next name for its value, and all others follow.
* **C100** `unbounded_stale` (Dec/SubMipCpx.lean): An unbounded problem: a solution is reported, with the values of the solve before, or with memory never written.
* **C100** `inf_or_unbd_infeasible` (Dec/SubMipCpx.lean): A problem that may be unbounded (`CPXMIP_INForUNBD`) is reported as solved, without a solution, that is as infeasible.
* **C100** `nodes_doubled` (Dec/SubMipCpx.lean): The number of nodes reported by `find_good_sol` with a solution is twice the number CPLEX needed.
* **C100** `called_again` (Dec/SubMipCpx.lean): After a solve that stopped with a solution for lack of memory, having found none at first, CPLEX is called again although there is a solution.
* **C100** `equality_lost` (Dec/SubMipCpx.lean): An equality cut loses its lower side, also in the problem left behind: points cut off become feasible.
* **C100** `other_rows_deleted` (Dec/SubMipCpx.lean): If the cuts are not the last rows of the problem other rows are deleted.
* **C100** `assigned_freed_twice` (Dec/SubMipCpx.lean): The assignment the compiler generates: the LP of one object is never freed and that of the other freed twice.
* **C101** `replaced_stale` (Itf/Rows.lean): After `setModel` or `use` the queries still answer for the rows of the old problem.
* **C101** `new_model_too_short` (Itf/Rows.lean): So a new model with more rows than the old one: the arrays are too short for its rows.
* **C101** `single_cut_stale` (Itf/Rows.lean): The protected `applyRowCut` leaves the cache as it is, unlike `applyRowCuts`.
* **C101** `quadratic_dropped` (Itf/Rows.lean): A problem that cannot take cuts throws for linear ones but silently drops the quadratic ones of a collection.
* **C103** `half_not_free` (Itf/VarTypes.lean): A binary variable with bounds 0 and 1/2 is not fixed, but not free either.
* **C103** `binary_lost` (Itf/VarTypes.lean): Relaxing a binary variable and making it integer again gives a general integer, though its bounds are 0 and 1; so does declaring it integer once more.
* **C104** `primal_tolerance_not_kept` (Itf/OsiParams.lean): The primal tolerance is refused in a message, accepted by the answer, and never returned.
* **C104** `tol_ignored` (Itf/OsiParams.lean): The primal tolerance returned is not option `tol` either.
* **C105** `new_problem_no_solution` (Itf/SolQueries.lean): A new problem has no column solution, though the user gave a starting point.
* **C105** `bound_hides_solution` (Itf/SolQueries.lean): After a change of a bound the solution of the solve before is not returned: the last starting point is, and nothing if there was none.
* **C105** `price_of_bound` (Itf/SolQueries.lean): Row prices are documented to be one per row; what is returned starts with the multipliers of lower bounds.
* **C105** `price_reads_past` (Itf/SolQueries.lean): One price per row, as documented, is too few for `setRowPrice`.
* **C105** `start_moved` (Itf/SolQueries.lean): Giving multipliers, or adding cuts (even none), to a problem that has not been started from a given point moves its starting point from the one of the user to 0.
* **C105** `removed_multiplier` (Itf/SolQueries.lean): After removal of a row its multiplier is that of the next row, and what is added later gets the multiplier of yet another.
* **C105** `activity_too_short` (Itf/SolQueries.lean): The activities after adding cuts are too few.
* **C105** `reset_dangles` (Itf/SolQueries.lean): Resetting the starting point leaves the pointer to the multipliers dangling.
* **C106** `equality_not_free` (Itf/SolQueries.lean): Equality rows are meant to be free, but never are: the status is overwritten.
* **C106** `sides_not_told_apart` (Itf/SolQueries.lean): A row at its upper bound and one at its lower bound get the same status.
* **C106** `no_basis` (Itf/SolQueries.lean): With an active row the result is no basis.
* **C107** `generators_twice` (Bab/Launch.lean): A second run with the same `Bab` has the generators of both runs.
* **C107** `still_dives` (Bab/Launch.lean): A run with `top-node` after one with diving still dives.
* **C108** `later_runs_lost` (Bab/Launch.lean): After a signal every later run of the process ends without a search: a new `Bab` reports an interruption, and `FeasibleOptimal` without any solution.
* **C108** `error_leaves_optimal` (Bab/Launch.lean): An error leaves status and solution of the `Bab` as they were: of a new one, `FeasibleOptimal`.
* **C108** `signal_after_end` (Bab/Launch.lean): The pointer to the model stays after the end of the run, so once the `Bab` is gone the first signal uses a model that does not exist.
* **C109** `exception_then_undefined` (Bab/Launch.lean): After the exception the array has entries never set, so destruction of the `Bab` (or another run) is undefined.
* **C110** `full_counts_twice` (Quad/Cut.lean): With storage `Full` the entries off the diagonal count twice: `x0 x1` stored as a whole symmetric matrix gives at `(1, 1)` the value 2 instead of 1.
* **C110** `constant_disagrees` (Quad/Cut.lean): The row built from a cut by the constructor does not contain the constant: a point that satisfies the cut violates the row.
* **C111** `self_insert_never` (Quad/Cut.lean): Inserting a collection into itself does not end: its vector grows while it is read.
* **C112** `unconstrained_cuts_off` (Oa/ObjRow.lean): Without rows, gradient entries below 1e-8 are removed with no correction: for `f(y) = y / 10⁹` at 0, the point -10¹² with its value -1000 violates the row.
* **C112** `failure_at_zero` (Oa/ObjRow.lean): A failure at 0 is not noticed although the point given is fine: the offset is then not determined.
* **C113** `main_limit_ignored` (Heur/LocalSearch.lean): Limits given for the main search with its prefix do not hold for local searches: with `bonmin.time_limit` 5 each may take 60 seconds.
* **C113** `pump_runs_bb` (Heur/LocalSearch.lean): With `algorithm B-BB` given without prefix, the pump is a branch-and-bound: the search it is meant to precede.
* **C113** `rins_without_limits` (Heur/LocalSearch.lean): RINS searches with the prefix `rins.` (BonHeuristicRINS.cpp:103), for which there are no defaults: the limits are those registered, i.e. none.
* **C114** `dummy_wrong_value` (Heur/LocalSearch.lean): The value the dummy pump returns is not the objective: the only feasible point 1 of an objective 7 x is returned with value 0.
* **C114** `dummy_wrong_cutoff` (Heur/LocalSearch.lean): The cutoff of the model is applied to the distance: with a negative cutoff nothing is found, though the point has objective -7.
* **C115** `deletes_twice` (Heur/LocalSearch.lean): Fix-and-solve and the dummy pump delete the copy of the solver a second time whenever they search.
* **C115** `leaks_without_search` (Heur/LocalSearch.lean): RINS and fix-and-solve leave the copy behind whenever too few variables are fixed.
* **C115** `objects_gone` (Heur/LocalSearch.lean): A search deletes the objects of the setup it was started from: the object 0 of the setup is gone after one call (a copy, 2, is left behind), and the next search deletes it again.
* **C116** `oa_log_level_not_used` (Bab/Params.lean): for B-OA: this algorithm sets the option `bb_log_level` to 0 (BonBonminSetup.cpp:664-665), but the parameters were read before: the search prints as if it had not.
* **C116** `zero_is_a_limit` (Bab/Params.lean): "value 0 deactivates option" is said of `iteration_limit` and `solution_limit` (BonBabSetupBase.cpp:466-476), but a 0 is given to Cbc as a limit of 0, not as the value 2147483647 that stands for no limit.
* **C116** `passed_list_not_written` (Bab/Params.lean): for a list that is not the setup's own: the presets for the variable selection are not written to the list passed, and without a list of its own the setup crashes.
* **C117** `fresh_forgets` (Bab/Init.lean): for a list of options made anew: everything read is forgotten, but `bonmin.opt` counts as read and is not read again.
* **C117** `set_first_crashes` (Bab/Init.lean): without a list of options: setting an option before anything was read is a NULL access.
* **C118** `second_initialisation` (Bab/Init.lean): a second initialisation from a problem keeps the first algorithm although the option has been changed, and the first interface is lost.
* **C119** `fortran_exits` (Strengthen/Nlp.lean): for structures numbered from 1 (`FORTRAN_STYLE`, as AMPL models give them, BonAmplTMINLP.cpp:692): if the cut has an entry for the first variable of the constraint, the program exits.
* **C119** `random_point_misses` (Strengthen/Nlp.lean): for the objective: at the random point its gradient may vanish although the cut (taken at 1/4, slope 1/2) has a coefficient: the program exits.
* **C119** `stale_point` (Strengthen/Nlp.lean): for problems that use `new_x`: the solver announces a new point with its call of `eval_f`; the user's constraint function is told that nothing has changed and returns the values of the point before.
* **C121** `coefficient_change_lost` (Strengthen/Compute.lean): for disjunctions: a local cut strengthened in its coefficient only is not inserted, although it cuts off more: here `2y₀ + y₁ ≤ 2` is found from `y₀ + y₁ ≤ 2` and lost.
* **C121** `disjunction_alone_ignored` (Strengthen/Compute.lean): for the option `disjunctive_cut_type`: with `cut_strengthening_type` at `none` there is no strengthener, and disjunctive cuts are not made though asked for.
* **C123** `copy_loses_constant` (Quad/Wrap.lean): a copy of a problem with a linear objective has its coefficients but not its constant: the value of its objective is undefined.
* **C124** `single_row_reports_failure` (Quad/Wrap.lean): for single constraints: the value and the gradient of an appended row are computed, but the call returns `false`, which says that they could not be.
* **C124** `scaling_never_returns` (Quad/Wrap.lean): for user scaling: the request for scaling parameters calls itself and does not return.
* **C125** `last_lost` (Nway/Object.lean): With the settings of the constructor, one level below the root, a solution is in no branch although no bound on members is known: two members are fractional, two are 0, and the solution has the second fractional member at 1.
* **C126** `moves_cancel` (Nway/Object.lean): The amount returned: `feasibleRegion` returns 0 although it moves two members, because one moves up and the other down.
* **C127** `copy_loses_bounds` (Nway/Object.lean): A copy forgets the bounds on the members: the original does not branch on a member whose bound exceeds the cutoff, the copy does.
* **C127** `assign_out_of_range` (Nway/Object.lean): Assigning an object with more members to one with consequences reads beyond the array of consequences.
* **C127** `assign_keeps_bounds` (Nway/Object.lean): Assignment keeps the old bounds, which then belong to other members.
* **C127** `quick_lists_zero` (Nway/Object.lean): An object told to branch quickly, at its root, still branches up on members whose value is 0.
* **C128** `strong_below_root_fails` (Nway/Choose.lean): With the settings of the constructor, strong branching one level below the root reads beyond the order of the branching object as soon as two members are 0 and free.
* **C128** `row_too_short` (Nway/Choose.lean): The rows have as many entries as there are n-way objects, not members: an object that branches on a member with a number not below that count is an access out of range.
* **C129** `failed_solve_recorded` (Nway/Choose.lean): solves that fail.** The value of a solve that neither succeeds nor proves infeasibility is recorded as a bound: with a value 1000 left by the solver, solutions of value 0 count as worse than 500.
* **C129** `unevaluated_fixed` (Nway/Choose.lean): objects not evaluated at the root.** Their row still has the cutoff of the root in every entry (210-217). As soon as the cutoff has improved, the quick fixing sets all their members to 0, and the node has no solution left.
* **C129** `all_members_fixed` (Nway/Choose.lean): Such a call: one object with two free members, cutoff 10 at the root and 5 now, with fixing allowed "in strong branching only" (2): both members are fixed although no branching was tried.
* **C130** `no_candidate` (Nway/Choose.lean): no candidate.** If no object is admitted for strong branching (`number_strong_branch` 0), the code is 0, "we have a candidate", without an object.
* **C130** `fixing_not_told` (Nway/Choose.lean): fixings not told.** Below the root strong branching fixes members and the code is 0.
* **C131** `weights_of_first_set` (Nway/Setup.lean): With weights of their own the sets get wrong consequences: here variables 0 and 3 have the weight 1, but the consequence of variable 0 is variable 2, with the weight 2.
* **C131** `weight_out_of_range` (Nway/Setup.lean): Weights are used as indices of an array with one entry more than there are sets: a set with a greater weight among its first ones is an access out of range.
* **C132** `one_candidate` (Nway/List.lean): If no unsatisfied object of the best priority has a positive usefulness, a single one is offered, that with the least number — however many there are.
* **C132** `less_useful_offered` (Nway/List.lean): Of two objects of the same priority the less useful one is offered.
* **C133** `negative_cutoff` (Nway/Useful.lean): With a negative cutoff every node with an objective above the multiplied cutoff — that is, any interesting node — gives a negative usefulness for every object with a free member, whatever the pseudo-costs; so only one object is offered (`one_candidate`).
* **C134** `geometric_zero` (Nway/Useful.lean): With geometric means, the default, an object that was not evaluated at the root never gets a pseudo-cost: the product starts from 0.
* **C134** `unbranched_root` (Nway/Useful.lean): A member that was not branched on at the root counts as one evaluation with the change `-DBL_MAX`; changes found later do not bring the mean back.
* **C134** `second_search` (Nway/Useful.lean): A rule used for a second search keeps the counts of the first: here one change of 6 is recorded, below the root, and the pseudo-cost is 2.
* **C134** `second_search_larger` (Nway/Useful.lean): If the second problem has more n-way objects than the first, the old rows of counts are too short: the usefulness of an old object is an access out of range.
* **C135** `negative_upper_bound` (Sepa/Inner.lean): The upper bound of a nonlinear row is taken to be 0: with `x0² - x1 ≤ -1` the point `(0, 0)` meets all the chords and not the row.
* **C135** `equality_row` (Sepa/Inner.lean): The lower bound of a nonlinear row is not looked at: with `x0² - x1 = 0` the point `(0, 1)` meets all the chords and not the row.
* **C135** `range_clipped` (Sepa/Inner.lean): The points end at 100 while the variable may be larger: with `x0 ∈ [0, 200]` the point `(200, 26000)` meets all the chords of `x0² - x1 ≤ 0` and not the row.
* **C135** `shared_variable` (Sepa/Inner.lean): A column that is linear in the row but nonlinear in another one moves along with the points: for `x0² - x1 ≤ 0` with both columns declared nonlinear, on `[0, 2]²`, the point `(9/10, 0)` meets all the chords and not the row.
* **C135** `one_point_no_chord` (Sepa/Inner.lean): One point (allowed by the option) and a range shorter than `1e-8`: no chord is made at all, and the nonlinear row, which was deleted, is not represented.
* **C137** `infeasible_returned` (Sepa/Inner.lean): The `Sepa` heuristic returns an infeasible point: columns `x0 ∈ [-1, 1]`, `x1 ∈ [0, 1]`, row `x0² - x1 = 0`, the MIP's solution `(0, 1)`.
* **C137** `linear_constant_lost` (Sepa/Inner.lean): A linear row with a constant term, `x0 + 1 ≤ 2`, is put in the MIP as `x0 ≤ 2`: the MIP's solution `x0 = 2` is returned and does not meet the row.
* **C139** `linear_row_in_front` (Sepa/Bon.lean): A linear row in front: the nonlinear row `x0² - x2 ≤ 0` is deleted and gets no chord, so the MIP does not contain it.
* **C139** `wrong_coordinate_moves` (Sepa/Bon.lean): The moving coordinate follows the number of the row, not its variable: with the rows `x1² - x2 ≤ 0` and `x0² - x2 ≤ 0` the second one gets only the last chord, and the point `(1/2, 0, 0)` meets all the chords and not the row.
* **C139** `one_column_overflow` (Sepa/Bon.lean): One variable and two nonlinear rows: the second row writes at index 1 of an array of one.
* **C140** `indicator_zero_ignored` (Sepa/Outer.lean): An indicator of index 0 is not seen: with `bin = 0` the tangent is not switched off at `z = x0 = 0`, `x1 = 0`, where the row is inactive.
* **C140** `two_sides_throw` (Sepa/Outer.lean): A row with two finite bounds and an indicator: its index is inserted twice, an exception.
* **C140** `od_cuts_off` (Sepa/Outer.lean): The rule of `BonOuterDescription` moves a small coefficient to the wrong bound: the row `-x1 / 10⁹ + x2 ≤ 0`, with `x1 ∈ [0, 5]`, linearised at 0, becomes `x2 ≤ 0` instead of `x2 ≤ 5·10⁻⁹` and cuts off the feasible point `x1 = 5, x2 = 5·10⁻⁹`.
* **C140** `od_zero_dual_free` (Sepa/Outer.lean): A row with two finite bounds and multiplier 0 gives, in `getMyOuterApproximation`, a cut without sides.
* **C141** `clipped_below_lower` (Sepa/Sample.lean): Beyond 10000 the upper end is clipped below the lower bound: with `x0 ∈ [20000, 30000]` the last point is 10000.
* **C141** `linear_at_zero` (Sepa/Sample.lean): Linear variables are put at 0, outside their bounds.
* **C142** `never_ends` (Sepa/Sample.lean): The loop never ends when the value settles: the convex function `max 0 (1 - x)` on `[0, 100]` with 4 points has steps 5/4 and threshold 1/3; the first step takes it to 0, where it stays.
* **C142** `never_ends_integer` (Sepa/Sample.lean): In the `Bonmin` variant integer variables do not move (step 0) though the two end values differ: the loop never ends for a row over integer variables, whatever the number of points above 2.
* **C142** `leaves_range` (Sepa/Sample.lean): The points leave the range: a convex function flat but for the last of the 80 steps gets its second point at step 81.
* **C142** `clustered` (Sepa/Sample.lean): Equal values at both ends make the threshold 0, and the points are the first steps: for `x²` on `[-1, 1]` with 5 points (100 steps) they are the steps 1, 2 and 3.
* **C145** `cut_bounds_lost` (Bcp/Wire.lean): The cut read is not the cut written: its bounds as a `BCP_cut`, which `cuts_to_rows` puts on the row, are −1e40 and 1e40. Unless the framework restores the bounds, `x₀ ≤ 1` comes back as a free row.
* **C146** `text_cut_at_nul` (Bcp/Wire.lean): A text with a NUL is cut off there without a word: of a (binary) problem file with a NUL only the part in front of it is parsed.
* **C147** `priority_violated` (Bcp/Sort.lean): A feasible object of the second priority moves `lastPriority` on, the block of infeasible objects of the first priority is not closed, and an infeasible object of the second priority is listed before one of the first.
* **C147** `feasible_priorities_mixed` (Bcp/Sort.lean): Feasible objects are sorted together whatever their priorities: `feasBlockStart` is never moved.
* **C147** `infeasible_object_ignored` (Bcp/Sort.lean): An object that shows the node infeasible (1e50) ends the search with the return value −1, which the caller does not look at: with no infeasible object before it the lists are empty.
* **C148** `crossed_bounds_counted` (Bcp/Sort.lean): With crossed bounds an object is counted that has no branch: one entry of the array stays uninitialised.
* **C150** `share_assertion` (Bcp/Strong.lean): "`branchNum` branches on `pidNum + 1` processes (the last is the local process)": the local process keeps no branch, and the assertion that it keeps its share fails, exactly when there is another process and a branch for each of the `pidNum + 1`.
* **C150** `granted_fails` (Bcp/Strong.lean): Below the root it fails whenever at least one process has been granted (at most `branchNum − 1` are asked for): with assertions distributed strong branching stops the program.
* **C151** `level_is_index` (Bcp/Strong.lean): `SBMaxLevel` ("the level where …", BM.hpp:80-83) is compared with the number of the node, not with its level: the node with number 9 gets no strong branching with `SBMaxLevel` = 8 even though it may be a child of the root.
* **C153** `odd_number_fathoms` (Bcp/Select.lean): With an odd number of branches one side of an infeasible object is not solved; the answer of an earlier node is used for it. Here one branch is tried, the up branch was infeasible at another node: the node is fathomed, though (1, 0) is feasible.
* **C154** `odd_number_asserts` (Bcp/Select.lean): With an odd number of branches the assertion that both sides have been evaluated fails.
* **C154** `odd_number_reads_unwritten` (Bcp/Select.lean): Without assertions, at the first such node a status never written is read.
* **C155** `unsolved_preferred` (Bcp/Select.lean): "Abandoned, optimal, infeasible" need not cover an answer: a solve stopped at the iteration limit has none of the three flags, its value 0 is used like an optimal one. Here object 1 is preferred for its two values 0 to object 0 with true values 6 and 7.
* **C155** `least_improvement_chosen` (Bcp/Select.lean): With the default of `PreferHighCombinationInBranching` the candidate that improves the bound least is branched on: object 1 with improvements 0 and 0 instead of object 0 with 9 and 9.
* **C156** `nothing_infeasible_fatal` (Bcp/Select.lean): When no object is infeasible, the run ends with an error, whatever was solved.
* **C157** `abandoned_child_bound` (Bcp/Select.lean): For a side abandoned the bound handed over is 0, above the value −5 of a feasible point of that child.
* **C157** `unevaluated_child_bound` (Bcp/Select.lean): An object taken because it was not evaluated hands over what an earlier node left, or what was never written.
* **C158** `failures_drop_solution` (Bcp/Node.lean): A node is dropped as fathomed after five failures whatever it contains: here the only solution.
* **C159** `before_circle` (Bcp/Node.lean): The comparison is no ordering: of three nodes each comes before the next in a circle, so that none is the best.
* **C160** `limit_taken_for_infeasible` (Bcp/Node.lean): A side stopped at a limit has none of the three flags: it is taken for infeasible, a change of 2 (cutoff − objective) is sent for it.
* **C160** `negative_pseudo_cost` (Bcp/Node.lean): A side with a better value than the node (a local solution of a nonconvex problem) makes a negative pseudo-cost.
* **C162** `negative_lost` (Bcp/Node.lean): Negative values are left out (`solverSol[i] > tolerance` without absolute value): −3 is written as 0.
* **C163** `hybrid_bound_unset` (Bcp/Node.lean): In the hybrid algorithm the bound is computed from a variable that is never set.
* **C164** `frequency_not_respected` (Bcp/Node.lean): A frequency means "every k nodes" elsewhere, a negative one "at the root only": here a generator with frequency 5 is called at every node and one with frequency −1 at none, not even the root.
* **C165** `limit_unset` (Bcp/Node.lean): The three parameters of strong branching have neither keyword nor default: for every parameter file and at every node the number of branches tried depends on a value never set.
* **C220** `shrinking_undefined` (Quad/Mat.lean): After a change to a smaller size the ordering still has a position that no longer exists, and the count of the non-empty rows reads beyond the arrays: matrix of two entries, count, `resize(1)`, count.
* **C220** `empty_keeps_list` (Quad/Mat.lean): On an empty matrix the count is 0 but the list is that of the matrix before.
* **C220** `assigned_keeps_list` (Quad/Mat.lean): After the assignment of a packed matrix the list of non-empty rows is still that of the matrix before.
* **C222** `resize_loses_array` (Quad/Mat.lean): The arrays of an empty packed matrix are lost by the next change of size.
* **C223** `dedup_deletes_all` (Quad/Mat.lean): A matrix built with `resize` has capacity 0, and `removeDuplicates` deletes all its entries while still counting one; the next count of rows reads through a null pointer.
* **C223** `dedup_single` (Quad/Mat.lean): On a matrix of one entry `removeDuplicates` loses the entry and the arrays.
* **C224** `sos_ignored` (Bcp/Setup.lean): Special ordered sets give no objects: whatever they are, the objects are the same.
* **C226** `binary_overwritten` (Bcp/Setup.lean): A binary variable is never given as binary to BCP: the type is overwritten.
* **C227** `cutoff_above` (Bcp/Setup.lean): With the default improvement of 1e-5 and a best solution of value 1 the cutoff is above 1.
* **C228** `switch_then_resolve` (Slv/IpoptState.lean): Solve the problem, switch to the feasibility problem, resolve: Ipopt is asked to re-optimise another problem.
* **C229** `level_taken_over` (Slv/IpoptState.lean): The print level 0 that the interface sets after the first solve is taken for the user's at the next initialisation.
* **C229** `default_before_init` (Slv/IpoptState.lean): Before the first initialisation `setOutputToDefault` reads a variable that was never set.
* **C231** `feasibility_fallback` (Itf/Others.lean): In feasibility mode the further solver is given the problem itself: its solution is reported for the feasibility problem.
* **C231** `other_unrecoverable` (Itf/Others.lean): An error of the further solver that cannot be recovered from is not thrown; with "not enough degrees of freedom" the problem does not even count as abandoned.
* **C232** `feasibility_disagree` (Itf/Others.lean): In feasibility mode solvers that agree on both problems are said to disagree.
* **C232** `tolerance_disagree` (Itf/Others.lean): Two solvers with the same solution disagree if one of them meets only the looser tolerance.
* **C233** `throw_negative` (Itf/Others.lean): A solver that throws leaves the time of day subtracted: the total becomes negative.
* **C233** `iterations_lost` (Itf/Others.lean): Iterations of feasibility problems, of solves that fail for good and of the further solvers are not counted.
* **C234** `mip_outside_bounds` (Heur/DiveMip.lean): With a bound of an integer column that is not an integer, the point returned may be outside the bounds.
* **C237** `round_far` (Heur/Rounding.lean): For a general integer column at 3 the objective is smaller at 10 than at 3: the MILP goes to the far end of the bounds although the relaxation is integral.
* **C238** `copy_repeats` (Heur/Rounding.lean): A copy, as made by `clone`, starts without cuts: it looks at the point its original has looked at.
* **C239** `zero_kills` (Heur/Rounding.lean): A point with no positive integer column ends the life of the heuristic: after it no point is allowed, so no later call returns a solution, whatever else is feasible.
* **C240** `status_zero_after_failure` (Bab/Programs.lean): Status 0 does not mean that the run completed: a failed NLP, a wrong option and an error of the interface all end with status 0.
* **C241** `node_solver_terminates` (Bab/Programs.lean): The same failure of an NLP that makes `bonmin` write its files and exit ends the node solver through `terminate`; and both programs are undefined in some run.
* **C242** `flushed_copy_undefined` (Slv/BqpdWarm.lean): A flushed warm start cannot be copied: its size is still 2, and the copy reads two integers through a null pointer.
* **C243** `fixed_moved` (Bab/Forced.lean): Variables that are fixed are meant to be left alone, but the test has the 1/2 on the wrong side: a fixed integer variable is moved above its upper bound.
* **C243** `unbounded_not_branchable` (Bab/Forced.lean): If the integer variables have no lower bound, and upper bounds that are not negative, they are all whole after `forceBranchable`: there is no variable to branch on, and the point of a node that was not solved counts as an integer solution of value `-1e200`.
* **C243** `no_integers_unchanged` (Bab/Forced.lean): Without integer variables, for instance with special ordered sets only, `forceBranchable` changes no variable.
* **C251** `second_try_passes` (Itf/Make.lean): After a solver failed to initialise, the next call of `initialize` ends normally: the solver is used although it is not initialised, and no option has been read.
* **C251** `second_options_ignored` (Itf/Make.lean): The second call of `initialize` ignores its options, the choice of the solver included.
* **C251** `user_solver_unread` (Itf/Make.lean): With a solver given by the user before, the options are not read.
* **C251** `all_needs_filter` (Itf/Make.lean): "run all available solvers": without filterSQP this is an error although Ipopt is available.
* **C251** `broken_other_kept` (Itf/Make.lean): A solver for comparisons that cannot be initialised is kept and used without an error.
* **C252** `stale_point` (Itf/ObjCoef.lean): After `setColSolution` the coefficients are still those at the point of the last solve.
* **C252** `unsolved_undefined` (Itf/ObjCoef.lean): Before the first solve a nonlinear objective is evaluated at a point that does not exist, also if a point was given.
* **C252** `no_columns_undefined` (Itf/ObjCoef.lean): Without columns the call writes before its array.
* **C252** `earlier_array_gone` (Itf/ObjCoef.lean): The coefficients returned before are gone after the next call, also if they are the same.
* **C253** `continuous_ignored` (Branch/Debug.lean): Bounds of continuous columns, as set by branching on special ordered sets, are not looked at: a correct solve of a node without the known point throws.
* **C253** `found_solution_throws` (Branch/Debug.lean): When the known solution has been found and is the cutoff, the side that keeps it counts as infeasible, and strong branching throws.
* **C253** `clone_misjudged` (Branch/Debug.lean): A branch made on a clone is judged by the bounds of the node: an infeasible side without the known solution makes strong branching throw.
* **C253** `unfinished_throws` (Branch/Debug.lean): A solve that did not finish throws like one that lost the solution.
* **C257** `search_depth_one_lost` (Bab/SearchProps.lean): With an NLP solver that is right whenever it answers and gives up on the two children of the root only, the search ends as complete without solution and without any mark of failure, although ten failures in a row are allowed: "infeasible" is reported for a problem that has the solutions 0, 1, 2 and 3.
* **C257** `search_decrement_suboptimal` (Bab/SearchProps.lean): With the default cutoff decrement 1e-5 and zero gaps the point reported as optimal need not be: the search for the minimum of `1e-5 (x - 8/5)^2` ends with 1, not with 2.
* **C259** `qg_repeat_loses` (Dec/QuesadaProps.lean): Maximise an integer `y` between 0 and 3 with `y^2 ≤ 87/10`: the LP gives 3, whose NLP is infeasible; with the tangent at 3 the LP gives 59/20, which is within 1/10 of 3. The checker takes this for a repetition and drops the whole problem: the search ends as complete without solution, although 2 is one and the contract is kept.
* **C302** `dropped_optimum` (Bcp/SearchProps.lean): After `BM_NumNlpFailureMax` failures in a row the node is dropped as if it were infeasible: here the search ends without a solution though there is one.
* **C302** `abandoned_accepted` (Bcp/SearchProps.lean): If the framework asks for the value of an abandoned solve, it is taken as the value of a solution: here the search ends with 10 though the optimum is 1 (`test_feasibility` and `compute_lower_bound` do not look at how the solve ended).
* **C304** `tolerance_gap_fatal` (Bcp/SearchProps.lean): With an integer tolerance below the primal tolerance a point can be too far from whole to be a solution and too near to be branched on; the run ends with an error.
* **C312** `proposed_again` (Dec/Shipped.lean): The outer approximation at the solution of an NLP does not keep the master problem from proposing its integers again, not even for the convex problem shipped as an example: with the integers of the optimum fixed, one point is feasible, with the value -5/2; the cuts made there, all linear rows and all bounds allow a point with the same integers and the value -3.
* **C312** `optimum_not_first_order` (Dec/Shipped.lean): The condition under which the integers do not come back, first-order optimality of the solution of the NLP, holds for no multipliers at the optimum of the shipped problem.
* **C312** `declared_solved` (Dec/Degenerate.lean): With right LP, MILP and NLP solvers and the cuts of the interface, with any multipliers, any increment and gap below 1/3 and any limits that are not reached, the OA decomposition ends after one pass, stores the point with `y = 0` and the value -1 and declares the node solved (bound 1e50), although the point with `y = 1` is feasible and has the value -5/4.
* **C312** `boa_suboptimal` (Dec/Degenerate.lean): B-OA then ends with that point as its solution, whatever the node selection, the gaps, the options and the other solvers are, and without a box reported as given up: the answer is "optimal, -1" for a problem with the optimum -5/4.
* **C312** `qg_suboptimal` (Dec/Degenerate.lean): B-QG loses the optimum of the same problem when the LP solver returns the vertex with `y = 0` of the optimal edge at the root (`milp_best`: an optimal solution of the LP with the first cuts, and also with the new ones): the root is dropped and the search ends with the value -1.
* **C313** `root_undefined` (Slv/Output.lean): B-BB with FilterSQP, whatever the options and the level for the root: the search works with a copy of the solver; the level forced for the root relaxation is not the one used, and going back to the default level reads a variable that was never set.
* **C313** `default_not_first` (Slv/Output.lean): The default level is not the level the solver starts with: with `filter.iprint` 3 and nothing else set the first run has level 3, and after going back to the default level the next has 1.
* **C314** `missing_accepted` (Slv/Output.lean): A file that cannot be opened is not reported: the initialisation returns `true` and differs in nothing from one without a file.
* **C314** `console_stale` (Slv/Output.lean): A `print_level` in the file does not reach the console: with 0 in the file the console keeps the registered default 5 (a second initialisation, even without a file, sets it).
* **C314** `truncated_accepted` (Slv/Output.lean): A file that ends in the middle of a setting is accepted: `true` is returned and the rest is not read.
* **C314** `option_file_unopened` (Slv/Output.lean): Reading an options file that cannot be opened, or when there is no solver, is not reported: the options are as before.
* **C315** `fp_tie_loops` (Dec/IfpConvex.lean): The pump does not end in case of a tie: with solutions of values 3 and 2.97 and an increment of 1/100 the second one is proposed again in every pass, until the limit on local searches (`INT_MAX`, BonFpForMinlp.cpp:39) is reached.
* **C315** `ifp_limit_wrong` (Dec/IfpConvex.lean): With `solution_limit 1` for the pump, B-iFP gives the root up with the solution of value 5 and nothing is left of the tree, although there is one of value 1: the relaxation is solved at 0.99999999, so the MILP maximises `y`; its solution is the first one found, the pump stops and claims that there is no better one.
* **C316** `pass_lost` (Dec/SubOptions.lean): `fp_pass_infeasible yes` does not reach the pump: B-iFP presets it under `bonmin.`, the pump looks under `pump_for_minlp.` and under no prefix; so the pump runs with the default `no`, also if the user writes `bonmin.fp_pass_infeasible yes` as in `test/bonmin.opt`.
* **C317** `oa_relaxed_refuted` (Dec/Relaxed.lean): With the relaxed right-hand sides the OA decomposition can declare a convex problem finished that has a solution, with exact solvers and no tolerance on integers: `y = 10^6` violates the row by 0.005, the NLP says infeasible, but the cut, relaxed by 1e-8 times its right-hand side, still admits `y = 10^6`; the LP proposes it again, the loop takes the repetition for the end and returns a bound of `1e50`, with no point found; the solution `y = 10^6 + 1` is lost.
* **C318** `qg_relaxed_refuted` (Dec/RelaxedQg.lean): With the relaxed right-hand sides B-QG can end as complete without a solution on a convex problem that has one, with exact solvers and no tolerance on integers: `y = 10^6` violates the row by 0.005, the NLP says infeasible, but the cut, relaxed by 1e-8 times its right-hand side, still admits `y = 10^6`; the LP proposes it again, the checker takes the repetition for the end of the node and the root is dropped with the solution `y = 10^6 + 1`.
* **C320** `boa_relaxed_refuted` (Dec/RelaxedBoa.lean): With exact solvers, but an NLP infeasible by less than the relaxation of its cuts, B-OA declares a convex problem finished at the root, without a solution and without a dropped box, though it has the solution `y = 10^6 + 1`.
* **C304** `no_integers_undef` (Bcp/SearchProps.lean): Without integer columns a node whose solve was given up, if the failures do not stop it and it is not over the upper bound, is branched on all the same: `sort_objects` reads the priority of the first object, and there is none.
* **C321** `latex_hyphen_lost` (Itf/OptDoc.lean): A hyphen in a name disappears from the LaTeX table: `\-` is a place for a line break, not a hyphen.
* **C321** `html_never_wellformed` (Itf/OptDoc.lean): The HTML table is never well formed, whatever the options: a row is closed at its end that is not open (and `writeHtmlOptionsTable` on a kind of options opens the table twice).
* **C321** `link_astray` (Itf/OptDoc.lean): Of two categories that differ only in blanks the link of the second leads to the section of the first.
* **C321** `no_category_no_section` (Itf/OptDoc.lean): An option without a category that comes first is listed in the table without a row for its category, and the documentation has no section for it.
* **C322** `init_unread` (Sepa/Setup.lean): `initialize` with a problem or an interface, without options read before, follows a null pointer: the options are asked before the base class has them.
* **C322** `itf_points` (Sepa/Setup.lean): With an interface the number of points is that of the options of the setup, though the options of the interface, which are used for all else, say another one.
* **C322** `sub_points_kept` (Sepa/Setup.lean): A copy with another prefix keeps the linearizer: it uses the number of points of the first prefix, not of its own.
* **C322** `copy_loses` (Sepa/Setup.lean): A plain copy has no heuristics, whatever the setup copied has.
* **C322** `init_twice` (Sepa/Setup.lean): `initialize` called twice with a problem enters the heuristics twice, and keeps the first algorithm though the options now say another one.

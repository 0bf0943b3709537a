# Formal model of LLNL/hiop in Lean 4 — design

## Layout

* `properties.jsonl` — the English properties C01, C02, ...
* `lean/Verif/<Area>/Model.lean` — definitions transcribed from the C++ code, each
  with a comment citing file and lines in `/repo` and naming any simplification.
* `lean/Verif/<Area>/Spec.lean` (or a `Spec` section) — the small, independent
  vocabulary in which the property is stated; it does not use the model's helpers.
* `lean/Verif/<Area>/Props.lean` — the property theorems, each followed by an
  `example` showing that a concrete non-trivial case meets its hypotheses.
* `MANIFEST.json` — property → theorem names and status.
* `seeded/LOG.jsonl` — mutation experiments on the model.

## Modelling conventions

* `double` is modelled by an arbitrary linearly ordered field `K`
  (`[Field K] [LinearOrder K] [IsStrictOrderedRing K]`), or by `ℝ` where `log`,
  `pow`, `sqrt` or derivatives occur. Floating-point rounding, overflow, NaN and
  infinities are **not** modelled. Literals such as `1e20` are exact.
* A `hiopVector` of local size `n` is `Fin n → K` for element-wise kernels, and a
  `List`/`Array` where lengths change. Loops with a carried state are folds or
  recursive functions over the index list in the order of the C++ loop.
* Only one MPI rank is modelled, except in `Verif/Mpi` (C34) and for the primal-decomposition scheduler,
  where the interleaving of rank completions is the subject.
* `assert` failures, out-of-bounds accesses and uninitialised reads are modelled
  as a distinct outcome (`none`/`Except.error`) where they can be reached.
* User callbacks, linear solvers and clocks are oracles: arbitrary functions or
  arbitrary answer streams over which the theorems quantify.
* Of the RAJA back end the triplet, dense and vector kernels are modelled, of the CUDA back end the vector kernels (the HIP
  files differ only in the names of the library calls) and those of the CSR matrices; cuSPARSE is not. Third-party solvers are oracles; the wrappers around them are modelled
  (`Verif/Wrap`, `Verif/Lin`). Of the output only the options and the logger are modelled.

## Trusted base

* Lean 4.33.0's kernel and the definitions of Mathlib that the statements use.
* The axioms `propext`, `Classical.choice`, `Quot.sound` and no others. AXIOMS.md lists them for each theorem of
  MANIFEST.json (1131 theorems when it was generated).
* The transcription. No tool connects the C++ code to the model. Each definition cites the lines it models and states
  its simplifications, or says that it has no counterpart in the code.
* Which functions have a model: COVERAGE.md lists, per source file, the functions that some definition cites and those that
  none does. A cited function need not be modelled in every statement.

## Plan per property

| id | model | proof |
|----|-------|-------|
| C01 | filter as list, ops as inductive, `run` over op list | induction over history, spec = set of pairs since last reset |
| C02 | `acceptLineSearch` decision function | case analysis against an independent acceptability predicate |
| C03 | fold over indices of both kernels, 8-block iterate version | fold invariant (min), maximality by witness |
| C04 | per-component projection, whole-vector loop with early exit | per-component inequality lemmas, list induction |
| C05 | per-component safeguard | case analysis |
| C06 | sequence of vector kernels as in the code | reduce to per-component formula, then inequalities |
| C07 | barrier objective/gradient kernels over ℝ | `HasDerivAt` of finite sums |
| C08 | `update_log_barrier_params` | inequalities on `min`/`max`; termination by decrease bounded below |
| C09 | `checkTermination` with counter state | decision table; induction on history for the counter |
| C10 | perturbation automaton (primal-first, dual-first) | invariant by induction; geometric growth for finiteness |
| C11 | acceptors over the automaton of C10 | case analysis |
| C12, C13 | loops over bound arrays | induction over the arrays; counting and order-preservation lemmas |
| C14 | fixed-variable remover on lists | induction; filter/merge lemmas |
| C15 | list of transformations with forward/backward folds | induction on the chain |
| C16 | scaling factors and apply/apply_inv | field algebra |
| C17 | relax kernels | inequalities |
| C18–C20 | rhs formation, recovery of directions, with matrices as linear maps | algebra in modules over K |
| C21 | residual kernels | iff by algebra, norms by max lemmas |
| C22 | loop with oracle and measure | termination by halving |
| C23 | `ensure_moving_lims` | inequalities (the absolute limit is violated: counterexample) |
| C24 | main loops as transition systems over oracles | invariants; counterexamples where the code deviates |
| C25 | master/worker message automaton | invariant: sent = received + outstanding |
| C26 | option tables, set/load operations | invariant over histories |
| C27, C28 | triplet/CSR loops | refinement to dense sums |
| C29 | secant-pair memory | invariant by induction |
| C30 | evaluator | algebra and `HasDerivAt` |
| C31 | protocol automaton | induction over answers |
| C32 | iterate operations | invariant by induction |
| C33 | filter automaton with cap | invariant from the first reset; counterexample before it |
| C36 | history of relax/scale/reset on bound vectors | induction; counterexample for reset |
| C37 | `get_dual_solutions`, `user_callback_solution` | permutation of finite sums; counterexamples for scaling |
| C38 | multipliers passed to `eval_Hess_Lagr` | permutation of finite sums; counterexamples |
| C39 | step operations of the iterate | algebra on the operation, induction over histories |
| C40 | twelve-block operator, error vectors, transposed operator | algebra; counterexample for the transpose |
| C41 | refinement loop with inner-solver oracle | induction on the loop; counterexample |
| C42 | PCG/BiCGStab loops over an arbitrary operator, preconditioner | loop invariant: true residual at every exit with success |
| C43 | curvature test, barrier gradient, residual | algebra of the Newton system over the reals |
- **C29, C44 (`Verif/QN`)** — `Core`: textbook BFGS, definiteness, secant equation, compact representation (Byrd–Nocedal–Schnabel) proved by induction over the pairs. `Model`: `hiopHessianLowRank` as a state machine with calls in any order. `Memory`: invariant relating the stored rows, `L`, `D`, `sigma` to the list of accepted pairs of the history. `Solve`/`Props`: the middle matrix is the documented one, is nonsingular, solves and inverse products are exact, products are exact unless clamped; composition with the low-rank KKT solver (C18).
- **C25 (`Verif/PriDec/{Protocol,Invariant,Fair,Props}`)** — master and evaluators as a transition system; a schedule is an arbitrary list (safety) or stream (termination) of choices of the acting rank or moving message. Invariant: a phase per evaluator linking its control state, messages and buffers, and conservation sums (evaluated + under way = handed out). Termination by a potential that every evaluator/network action lowers, plus a distance for the polling master.
- **C30 (`Verif/PriDec/Recourse`)** — the evaluator's three callbacks; exact second-order expansion, derivative over the reals.
- **C45 (`Verif/PriDec/{Alg,AlgProps}`)** — `HessianApprox` and the outer loop with the master solver as an oracle; induction over iterations.
- **C26 (`Verif/Options/{Table,Model,Spec,Lemmas,Consist,Props}`)** — the two registries transcribed entry by entry, the setters, the file reader and the 17 consistency rules; `none` is a failed `assert`. Invariant (well formed) by induction over the history; each rule is shown to change one option only and to establish one relation, later rules keep it; the pass is idempotent, which gives "no effect" for unknown names.
- **C28 (`Verif/Csr/{Model,Spec,Lemmas,Form,Ops,Props}`)** — the loops of the sequential CSR class over total arrays with explicit allocator garbage; `none` is a failed `assert` or a write through a null pointer. Loop invariants give the row lists of each result (`Pat`); numeric passes are shown cell by cell; the triplet transposition carries the row starts through the rollback, so refreshes are covered by induction.
- **C46 (`Verif/Csr/{Condensed,CondProps}`)** — `build_kkt_matrix` of the condensed class as a state machine over the nine CSR members; an invariant on the patterns of the members is kept by every call, each numeric stage gives the entries; the MA57 triplets are the lower triangle of a symmetric matrix; directions follow from `C19_condensed_partial`.
- **C35 (`Verif/Duals`)** — the three `do_lsq_update` functions with their assembly, `compute_initial_duals_eq` and `go`; the solver's exact answer gives the normal equations (dense, mixed) or the augmented system (sparse), from which the objective of any competitor is the minimum plus a sum of squares. Uniqueness by the parallelogram identity, definiteness by writing the quadratic form as a sum of squares.
- **C47 (`Verif/Checkpoint`)** — groups are partial maps from names to strided views; saving and loading are sequences of view copies on (state, array) slots that stop at the first exception and keep what was done before. The round trip follows from separation of the slots and distinctness of the 33 names; the `#` loop by induction on the number of `#`.
- **C34 (`Verif/Mpi`)** — a partition is a monotone offset array; a distributed vector is a family of local vectors; a reduction is an inductive relation that combines the contributions in any tree over any permutation. Each distributed function is written from the code with its own reductions and proved equivalent to the serial function already modelled, by re-indexing sums over the partition and associativity/commutativity of the reduction operation.
- **C48 (`Verif/Fr`)** — arrays of the subproblem are functions on positions, with a layout record for the sparse/dense order (x, p, n) and the mixed order (sparse x, p, n, dense x); user callbacks of the base problem are oracles returning `none` on failure. Derivatives are stated with `HasDerivAt` of the evaluated functions along coordinates; the l1 penalty as `IsLeast` over all feasible arrays; the warm start as optimality of p, n for the barrier function; the stopping test as an equivalence.
- **C49, C50 (`Verif/Evals`)** — a transition system over arbitrary points and multipliers that records the calls (function, point, `new_x`) and, for each stored value, the point it was evaluated at; users are arbitrary functions from call histories to success or failure; everything the tests and the linear algebra decide is a free choice. Invariant over runs of any length; caching users are a separate specification.
- **C51 (`Verif/Lin`)** — the conversions from triplets to compressed rows as loops over arrays with the array bounds, `std::sort` as an arbitrary function that sorts, refreshes as further steps; invariants over the loops describe every row as a list of (column, place in the triplets); the dense matrix of the result is compared with the dense matrix of the triplets (the specification of C27).
- **C52, C53, C54 (`Verif/Lin/Sylvester`, `Inertia`, `Saddle`, `Verif/Kkt/Inertia`)** — negative eigenvalues are those of Mathlib's spectral theorem (`IsHermitian.eigenvalues`); Sylvester's law of inertia, Haynsworth's additivity and the saddle point facts (inertia equal to the number of constraints iff positive curvature on the null space, monotone in the Hessian, repaired by regularization) are proved from dimension counting. The pivot scan is modelled as the loop it is, with the contract of DSYTRF as a hypothesis; the sparse block is eliminated by the model of `build_kkt_matrix` used in C18. The factorization loop is the one of C11.
- **C55 (`Verif/Compound`)** — a compound vector is a dependent family of parts with a part counter; each operation is modelled as the loop over the parts, with the failed size assertion as `none`. The specification is `flat`, the concatenation along `finSigmaFinEquiv`; each theorem compares with the plain operation of `Verif/Vec` on it.
- **C56 (`Verif/Range`)** — offsets and counts are integers, a failed assertion or access outside an array is `none`. `BlockAt`, `rank` and `count` (cardinalities of index sets) are the specification; the pattern loops are followed by induction over the list of indexes.
- **C57 (`Verif/Sparse/Full*`)** — the assembly is the list of the thirty-two block writes of the code, run over one triplet store; each write is shown to append one list of triplets (`Appends`), and each block row of the resulting matrix is evaluated by `rowSum` lemmas. Packing and unpacking reuse `Verif/Range`. The specification is `FullNewton` of `Verif/Kkt/Spec` together with `OffZero`.
- **C58 (`Verif/DenseMat`)** — the storage is one array with a size, every access outside it is a failure; BLAS/LAPACK by their reference implementations on column-major arrays with argument checks. `Is A m n f` (Lemmas) says that the matrix is well formed, has `m` rows and `n` columns and entries `f i j`; every theorem says which `f` the operation leaves. Loops are handled by three induction lemmas (`loop_accum`, `loop_over`, `loop_rows`).
- **C59 (`Verif/Csr/Normal*.lean`, `Verif/Perturb/Kind.lean`)** — the matrices of hiopKKTLinSysNormalEquation (stacked Jacobian [Jc 0; Jd -I], its transpose, the scaled transpose, the product, the sum with the diagonal) built with the compressed-row model of C46; an arbitrary history of full and dual-only updates; the sort of the triplets is an oracle that permutes and orders. `normEntry` is the entry of J D^{-1} J' + diag, written as a sum. The direction theorem uses the elimination of C19. `Kind.lean` models the update kinds announced by the two perturbation strategies.
- **C60 (`Verif/Mds`)** — the two parts are the models of C27 (triplets) and C58 (row-major arrays), the vectors are arrays with a size, and pointer offsets become checked sub-arrays (`part`, `onPart`). `IsM A m ns nd g` (Props) says that the object holds the m x (ns+nd) matrix g, `IsS` the same for symmetric block-diagonal ones; every theorem says which g the operation leaves.
- **C61 (`Verif/Kron`)** — triplet matrices are lists, the position in the source arrays is the rest of the list; `sum_up_duplicates` works in place on arrays with two indexes. `tl l r c` (Lemmas) is the part of the list at or after a position, and each skipping loop is shown to move from one such part to another. UMFPACK is an oracle that answers a status and a vector. The reduction theorem is about currents `Y*V`, for all `V`, and does not mention slices.
- **C62 (`Verif/Raja`)** — `Sched`: a loop body is a program of reads, writes and atomic updates on a memory; `Step`/`Exec` interleave the iterations arbitrarily; `forallR n body m` is the set of all outcomes (final memories, failed assertions). `race_free`: when no iteration writes what another reads or writes, the only outcome is the sequential one; `atomic_adds`: atomic additions give the sum. Reductions are sets of values over all orders and groupings (`Combines`). Each kernel is written with these and its outcome set is shown to be the single host result. Fresh memory is an arbitrary array (`junk`). Weak memory and rounding are not modelled: reads and writes are atomic and interleaved, additions are exact.
- **C63 (`Verif/Raja/VecModel`, `VecProps`)** — the loops of `hiopVectorRaja` in the semantics of C62; each outcome set is compared with the host model of C07 and C56 (`Vec`, `Range`, `Nlp`). Reductions are sets over all orders. Packing is a state machine over the cached index array; `Cached` is its invariant.
- **C64 (`Verif/Raja/DenseModel`, `DenseProps`)** — `hiopMatrixDenseRaja` on the object of the host model of C58 (`Verif/DenseMat`), loops in the semantics of C62 (a two-dimensional kernel is a loop over pairs). Every result is stated with the values of C58 (`Is A m n f`), for all schedules. One process; the host mirror of the data is not modelled.
- **C65 (`Verif/Select/Model`, `Props`, `Run`)** — Choice of the formulation, the acceptor and the linear solver as functions of the build flags and of the option values left by any history of option calls (C26), and the switching between fast and safe solvers as a state machine over the iterations of the Newton algorithm. The course of the numerics (mu large, safe mode asked for, a second pass) is an arbitrary sequence. Invariants over all runs for acceptor, solver and parameters; the documented choice is a separate small function (`documented`). Device-only branches (`gpu` mode of the symmetric systems) are modelled in the functions but only the assertion behaviour is stated. Counts of negative eigenvalues are tied to the perturbation algorithm of C10/C11 (`Perturb.factorize`).
- **C66 (`Verif/CApi/Model`, `Props`, `Fortran`)** — The C++ class that wraps C callbacks as a function from calls of the solver to calls of a stateful C user (one model for the mixed, sparse and dense classes, whose code is the same up to opaque block arguments); the solver is an arbitrary adaptive sequence of calls, and for the statements about new_x and error reporting it is the run model of C49/C50. The faithful interface is a separate specification. The Fortran wrappers are a C user with index conversion; matrix contents are proved by an invariant over arbitrary interleavings of Jacobian and Hessian evaluations. Memory: blocks allocated and freed over arbitrary create/delete histories. Options at creation through the options model (C26) and the solver choice (C65). Not modelled: the bodies of the Fortran procedures, name mangling, out-of-memory (`malloc` failing).
- **C67 (`Verif/Ipopt/Model`, `Props`)** — The three adapter classes as functions of the user's callbacks and of the buffers kept between calls; assertions on or off. Specification: a problem (constraints, Jacobian, Hessian as functions), the matrix denoted by a list of places and a list of values (entries with the same place are added, as in Ipopt), and what a right answer is for each call. Proved over arbitrary sequences of calls by an invariant on the buffers. Not modelled: Ipopt itself, bounds and starting point (copied), the values `hiop::Solve_Success` handed to `solution_callback` whatever the outcome.
- **C68 (`Verif/Wrap/Model`, `Props`)** — Each wrapper is a state machine with the calls `change` (`matrixChanged`) and `solve`; a library is an arbitrary function giving status codes and outputs. `Truth` states the facts about matrices (eigenvalue counts, solutions) and `Good` says that a history of calls and answers agrees with them. One lemma (`good_of_steps`) lifts invariants to all histories. The loop of MA57 is an unbounded iteration whose answer is that of the first ending round, or `hang`; termination is by a measure on the sizes. For Cholesky the CSR arrays and the permutation loops are modelled and the solve is shown to solve the original system. Contracts of the libraries (`Ma57Ok`, `PardisoOk`, ...) are hypotheses, each met by a concrete library.
- **C69 (`Verif/Callback/Model`, `Props`)** — The callbacks and getters as functions of the iterate held by the solver object, with arbitrary contents of the work vectors; `solCb` also returns the iterate as it leaves it. A session is a list of events (iteration, end of run, getter) and `Consistent` says that every getter returns what was shown last; proved by induction over the session. `Holds` ties the stored values to the user's functions.
- **C70 (`Verif/IneqForm/Model`, `Props`)** — The loop of `process_constraints` is a fold; `SolverFeasible` is stated with the arrays the solver gets (map, bounds, indicators), `UserFeasible` with the user's bounds; inclusion and violation bounds are proved by arithmetic in an ordered field.
- **C71 (`Verif/Gpu/Model`, `Props`)** — A kernel launch is a grid of threads, each running the loop `i = tid, tid + T, …`; `launchG_eq` reduces it to one concurrent iteration per index (a simulation in both directions removes idle threads). Thrust reductions are `Combines` as for RAJA; a temporary array filled by a kernel comes before some of them. Every operation is compared with the host operation of `Verif.Vec.Model`/`Verif.Range.Model`.
- **C72 (`Verif/Options/Print`, `PrintProps`)** — `print` is modelled down to the characters (`%.3e`, `%d`, names in the order of the map, ranges in comments); `lineSays`/`fileSays` is an independent reading of an options file. Induction over the lines shows what each option is afterwards; the printed listing is shown to satisfy `fileSays` for the printed value of each option.
- **C73 (`Verif/Options/Log`, `LogProps`)** — `render` is `printf` for `%s`, `%d`, `%g`, `%%` and is undefined for anything else or missing arguments. `log_printf` formats into 1024 bytes and passes the result as a format. `Paired` specifies harmless texts. Every message of a file line or setter call is shown to be well formed.
- **C74 (`Verif/Life`)** — a language of pointer programs (`new`, `delete`, assignment, exchange, use, branches, loops, calls) with an operational semantics in which using or deleting a released object is undefined; constructor, `run` (both solvers, with the nested restoration solver) and destructor are written in it, branches nondeterministic. `Check.lean` has an analysis of such programs that joins descriptions with the same owned pointers and follows loops until nothing new appears, proved sound for all executions (`chk_sound`); the kernel evaluates it on the four kinds of solvers.
- **C75 (`Verif/Session`)** — a state machine over a problem object and a solver: setting options, constructing a solver, running (what a run leaves behind is arbitrary), loading a state. `fresh` is the independent specification of a run's start. Theorems by induction over histories; the failures are concrete histories.
- **C76 (`Verif/Fgmres`)** — `fgmres` statement by statement over ℝ with the memory it uses as arrays (`Mem`), the four Gram-Schmidt variants, rotations, back substitution, restarts, and the reduction kernel. The preconditioner is an arbitrary function of the iteration and the vector. Proof: an invariant of the inner loop (`J`: orthonormal basis, `A Z = V H`, accumulated rotations orthogonal, triangular factor) gives the least-squares optimum after the back substitution; the outer loop by induction. The specification consists of `norm2 (b - A x)`, `Kry` (what the directions are) and the minimum over all coefficients.
- **C77 (`Verif/Refact`)** — `createM` and the allocation in front of it, every array access checked (`none` = out of bounds). The specification (`Factors`, `Has`, `rowOf`) says only what compressed columns and compressed rows mean. Proof: both passes visit the same list of entries (`passes`); the first pass counts them per row, the prefix sums are the numbers of entries in earlier rows, and the second pass keeps the invariant that the part of each row visited so far is in place (`place_fold`).
- **C78 (`Verif/Refine`)** — `compute_directions_w_IR` with the BiCGStab model of C42, the full operator of C40 and the direct computation as preconditioner, on the concatenation of the twelve parts (C55). The specification writes out the Newton equations (`newtonLhs`, `FullNewton`), the sum of squared defects (`sq12`) and vanishing at missing bounds (`DirOff`, `ResidOff`). Proof: the operator is linear and inverts an exact preconditioner (C18/C19 with C40), so the first half step ends the method (`bicg_exact`); solutions and right-hand sides vanishing at missing bounds are subspaces that the loop keeps (`bicg_kept`).
- **C79 (`Verif/CsrGpu`)** — the kernels for CSR matrices on CUDA devices as concurrent programs over the value array (`Verif.Raja.Sched`, `Verif.Gpu`), and the host code launching them. The specification is that of C28: `get` of a matrix, `entry` of a triplet list. Proof: the binary search returns the position of the row's own diagonal if the row is not empty (`search_at`, `search_absent`), distinct rows own disjoint ranges, so the launch is race free and its outcome is the sequential one.
- **C80 (`Verif/KryKer`)** — the kernels of the GPU Krylov solver as concurrent programs over shared and global memory, one launch per phase between two barriers, with a parameter for how a warp runs. The specification is the finite sum of each inner product, combination or row. Proof: each phase is race free (`forallR_race_free`), the reduction tree sums residue classes (`tree_sum`); for independent warps one schedule is constructed (`thread_zero_first`).
- **C81 (`Verif/Mem`)** — a heap of arrays, each with the backend that allocated it; `memcpy`, `ResourceManager::copy` (size 0 means all) and `cudaMemcpy` with their preconditions; the sixteen transfers, allocation, the mirrored objects, and the factory as a function of the build and the name of the space. The specification is `Copied` (which cells change), `owner` (which arrays exist), `wanted` (where an object belongs) and `CanRun`. Proof: by cases over the backends, with one lemma for the copy through a temporary array (`via_temp`).
- **C82 (`Verif/Stats`)** — a run as the list of its steps (work and calls of the user with durations, operations on the timers and counters), and an interpreter of the timers and counters; the evaluation functions, the line searches, the KKT iteration and the factorizations as the lists of steps they go through. The specification reads the truth off the list: `wall`, `ownTime`, `userTime`, `calls`. Proof: predicates of lists closed under concatenation (`Sound`, `Timed`), induction over requests and trial points.
- **C83 (`Verif/FrMpi`)** — the functions of `hiopFRProbDense` as one rank runs them, on local arrays with first and last global index, with the branches of `copyToStarting` and `copy_from_starting_at`; reductions and broadcasts as relations between ranks (`Verif/Mpi`). The specification is the one-rank model of `Verif/Fr` (proved right in C48) and `Holds`: each rank holds its part of the array. Proof: one lemma for each kind of copy, cases on whether the rank is the last.
- **C66 continued (`Verif/CApi/FortranDense`)** — the Fortran wrappers of dense problems as a C user; the promise to a Fortran program as a separate function; equality in all adaptive runs. The storage order of a Fortran array against the row order of the solver's matrix by index arithmetic.
- **C84 (`Verif/RemMpi`)** — the branch `fixed_var = remove` of `finalizeInitialization` as one rank runs it, on the rank's part of the bounds, with the reduction of the counters and the gathered numbers of fixed variables; the rank's remover is the one of `Verif/Nlp`. The specification is the one-rank removal (proved right in C14) cut into parts. Proof: the number of kept variables below a global index is the number below the rank's first index plus the local number (induction), so the local maps are the global map shifted by the new distribution; histories by induction.
- **C85 (`Verif/IterLog`)** — the printed lines and messages, and the variables `lsStatus`, `lsNum`, `use_soc`, `use_fr` they are printed from, over the loops of `Verif/Driver`. The specification is a page of numbered lines and the relation `Took` between the trial points of a line search and the number and letter printed. Proof: induction over the run for the page; case analysis over the ways an attempt ends (C22_outcome) for the column.
- **C86 (`Verif/IntVec`)** — the loops of the host's integer vectors with 32-bit arithmetic (overflow is undefined and gives no result), the RAJA loops and device kernels over the schedules of `Verif/Raja/Sched`, compound vectors as lists of parts. Proof: induction over the loops; race freedom for the schedules.
- **C87 (`Verif/ProbType`)** — the members `prob_type_` and `nlp_evaluated_` and the early returns of the evaluations, over histories of initialisations and evaluations; the user's functions are arbitrary. Proof: the flag is invariant; induction over the history.
- **C88 (`Verif/StartPt`)** — `get_starting_point`, `get_warmstart_point` and `startingProcedure` with the user's methods as arbitrary functions on the arrays handed to them; memory behind arrays that are shorter than announced is part of the model. Proof: the projection is the identity on points that keep the margins, the slack correction on slacks above the threshold; case analysis over the flags.
- **C89 (`Verif/PdSession`)** — the solver object with its settings, and the user's object as an arbitrary state machine that holds the pointer to the approximation; memory of approximation objects; every call recorded with arguments and answers. Proof: each round's part of the log is shown to have the form given by `IsRound`, induction over the rounds and over histories; simulation between runs of users without memory and the iteration of C45.
- **C90 (`Verif/UserArgs`)** — for each class and each evaluation, the argument `n` and the array `x` of the user's function, with the buffer of the remover (that of `Verif/Nlp`) as state. Proof: invariant that the buffer holds the user's point of the last evaluation; for complete runs, truthfulness is C49 and an induction over the run of `Verif/Evals` shows that Hessians never come with `new_x`.
- **C91 (`Verif/SoftFr`)** — the loop of `solve_soft_feasibility_restoration` over arbitrary trial points, with the filter of `Verif/Filter` and free results of the linear solves, multiplier updates and evaluations. Proof: one round leads to one of four ends or to the next round; induction over the rounds left.
- **C92 (`Verif/KktFile`)** — the writer of dense matrices and vectors over the files of a directory, with the counter of the system, over all sequences of factorizations and solves. The specification is a parser of the documented format. Proof: the three loops enumerate the same entries row by row; invariant that counter and writer agree; later calls leave finished files alone.

Deviations of the code from a property are recorded in the section below, with
a theorem exhibiting a concrete witness and a `_partial` theorem for what holds.

## Findings (code deviates from the stated property)

* **F1 (C33)** The filter is only cleared, not initialised with the infeasibility cap, before the
  first barrier problem; the cap is not enforced there
  (`Hiop.Filter.C33_cap_violated_in_first_barrier_problem`).
* **F2 (C04)** On a two-sided interval narrower than `small/kappa2` the projected starting point is
  not strictly inside (`Hiop.Vec.C04_narrow_interval_not_inside`).
* **F3 (C32, C06)** The safe slacks of the starting point are computed while all multipliers are
  still zero. If a kept variable has equal bounds and another two-sided variable has room, the
  slack of the latter becomes NaN (`0*inf`), see `Hiop.Iterate.C32_start_fixed_variable_nan`,
  `Hiop.Iterate.C06_nan_iff`, and the extended-arithmetic replay in `Verif/Iterate/Ieee.lean`.
* **F4 (C23)** The absolute moving limit divides by `alpha*norm(dx)` instead of `norm(dx)`: for steps
  shorter than one the limit is exceeded and the "reduced" step can be longer
  (`C23_absolute_violated`, `C23_absolute_can_increase`).
* **F5 (C22)** A user failure inside the second-order correction comes back as line-search status
  -15 and trips `assert(lsStatus==0)` (`C22_soc_user_error_aborts`); `accept_every_trial_step` leaves
  the loop with the failure status 0 (`C22_accept_every_step_status`); `min_step_size=0` is allowed
  and lets the loop run forever (`C22_zero_min_step_diverges`).
* **F6 (C24)** Quasi-Newton: a successful restoration leaves the loop with `NlpSolve_Pending`
  (`C24_quasi_newton_pending`). A user error during the soft restoration is overwritten
  (`C24_soft_restoration_swallows_user_error`). The inertia-free refactorisation limit reached in both
  passes completes an iteration without a new trial point (`C24_refactorization_limit_accepts_stale`).
* **F7 (C08)** `mu0` below a tenth of the tolerance is raised, not lowered
  (`C08_mu_raised_below_floor`).
* **F8 (C10)** Primal-first perturbation: `compute_initial_deltas` overwrites the primal
  perturbation computed for a degenerate Hessian with a local that was never assigned, so a
  declared-degenerate Hessian is not perturbed (`C10_degenerate_hessian_ignored`); when the
  Jacobian is degenerate too, `x` gets the *dual* perturbation and the slacks get zero, and the next
  request fails `assert(delta_wx == delta_wd)` (`C10_degenerate_mismatch`, reachable by
  `C10_degenerate_mismatch_reachable`). The sequence singular / wrong inertia / singular fails an
  assertion as well (`C10_assertion_reachable`).
* **F9 (C11)** `factorize_inertia_free` ignores the answer to its first request and returns success
  after its refactorization limit although the last factorization failed
  (`C11_free_reports_failed_factorization`).
* **F10 (C12)** After removal the counters of lower/upper/two-sided bounds are decreased by the number
  of removed variables although a removed variable may have no lower bound (fixed at -1e20)
  (`C12_counts_after_removal_false`).
* **F11 (C14)** The remover recomputes which variables are fixed without the finiteness guard of
  `process_bounds`; variables with close bounds beyond 1e20 fail an assertion
  (`C14_setup_abort_example`). `getSolution` copies as many entries as there are *remaining*
  variables, so with removal the tail of the user's array is never written
  (`C14_returned_point_false`).
* **F12 (C36)** `reset_bounds` (elastic mode) recomputes the bounds from the unscaled originals after
  scaling was installed (`C36_reset_drops_scaling`, `C36_scaled_bounds_false`).
* **F13 (C16)** `scaling_min_grad` can defeat the gradient limit (`C16_obj_limit_false`);
  `scaling_max_obj_grad` can give a factor above one (`C16_obj_factor_gt_one`);
  `scaling_max_con_grad` applies one factor to all rows although documented per constraint
  (`C16_con_target_not_per_row`) and divides by zero for a vanishing block
  (`C16_zero_jacobian_block`); the merged factors used for the multipliers given to the user's
  Hessian ignore both options (`C16_cd_factor_inconsistent`).
* **F14 (C15)** Solving twice with one problem object appends a second scaling, but only the last
  factor is divided out of the reported objective (`C15_reported_objective_second_run`). One-call
  Jacobians of dense problems are scaled with the inverse factors
  (`C15_dense_one_call_jacobian_false`).
* **F15 (C31)** A failure of both partial calls at the first point, e.g. a domain error there,
  permanently switches to the one-call interface (`C31_transient_failure_switches_mode`).
* **F16 (C37)** With scaling the solution callback multiplies multipliers by the objective factor where
  it must divide (`C37_callback_scaled_exact`, `C37_callback_scaled_false`); `get_dual_solutions`
  never reads the constraint multipliers (`C37_getter_ignores_multipliers`).
* **F17 (C38)** Sparse problems: the multipliers passed to the Hessian are in the order of the
  constraints, not in the documented order (`C38_sparse_documented_false`). MDS problems: factors in
  constraint order are applied to multipliers in documented order (`C38_mds_scaled_false`).
* **F18 (C18)** Dense (x,yc,yd) assembly subtracts the inequality perturbation in the rows of the
  equalities and never adds the equality perturbation (`C18_dense_wrong_diagonal`,
  `C18_dense_refuted`). Dense (x,d,yc,yd): same misplacement (`C19_dense_wrong_diagonal`,
  `C19_dense_refuted`). The condensed system ignores the dual perturbation
  (`C19_condensed_ignores_dual_perturbation`).
* **F19 (C40)** `trans_times_vec` of the full operator is not the transpose of `times_vec`
  (`C40_transpose_refuted`).
* **F20 (C41)** `solveWithRefin` computes corrections but returns the unrefined vector and no failure
  (`C41_refinement_has_no_effect`, `C41_refined_residual_refuted`).
* **F21 (C21)** `hiopResidual::copyFrom` does not copy the constraint violation
  (`C21_copy_stale_violation`).
* **F22 (C42)** The Krylov solver keeps the compound vector of its first call: later solves into a
  different iterate (soft feasibility restoration after a Newton step) overwrite the first one and
  leave the requested one unchanged (`C42_into_other_object`). `compute_directions_w_IR` reports
  success for solves that missed the tolerance (`C42_ir_reports_success_refuted`). BiCGStab overwrites
  the right-hand side before the final comparison when giving up (`C42_bicg_giveup_overwrites`).
  Failed solves can report one iteration more than the limit (`C42_failed_iteration_count`).
- **F23 (C27).** Triplets repeated at one position mean their sum to the matrix-vector products, but `addMDinvMtransToDiagBlockOfSymDeMatUTri` adds the sum of squares, `extract_diagonal` keeps the last one and `row_max_abs_value` the largest (`C27_addMDinvMt_duplicates_refuted`, `C27_extractDiagonal_duplicates_refuted`, `C27_rowMaxAbs_duplicates_refuted`).
- **F24 (C27).** `startingAtAddSubDiagonalToStartingAt` with a nonzero diagonal start writes `diag_src_start` positions too far (`C27_addSubDiag_refuted`).
- **F25 (C27).** `copyRowsBlockFrom` on a source whose rows are not sorted leaves positions of the destination unwritten, with their previous contents, and reports nothing (`C27_copyRowsBlock_unsorted_refuted`). Row products of unsorted columns miss terms (`C27_timesMatTrans_unsorted_refuted`).
- **F26 (C18).** The sparse (x, yc, yd) formulation (`hiopKKTLinSysSparse.cpp:166-174`) accumulates into `Dd_inv_` without resetting it and adds `delta_cd` into it before it is used as the reciprocal diagonal. From the second matrix build on (and, with a dual perturbation, from the first) the directions are not Newton directions (`C18_sparse_later_calls_refuted`, `C18_sparse_dual_perturbation_refuted`). The (x, yc, yd) formulation is the default for sparse problems (`KKTLinsys=auto`, hiopAlgFilterIPM.cpp:1887-1889); the outer iterative refinement with the full operator hides the error at the cost of iterations. The (x, d, yc, yd) formulation has no such defect (`C19_sparse`).
- **F27 (quasi-Newton, proved: `C44_product_false`).** `timesVecCmn` (hiopHessianLowRank.cpp:1008-1011) replaces curvatures below machine epsilon by epsilon, `solve` and `symMatTimesInverseTimesMatTrans` use the true curvature, and `update` accepts such pairs (its test is relative to the norms). For steps below about 1e-8, which are normal close to convergence, products and solves therefore use different matrices. Also: option `sigma0` admits 0, for which `DhInv` divides by zero for variables without bounds until a pair is accepted; `sigma_update_strategy=snrm_ynrm` sets the multiple of the identity to ‖s‖/‖y‖, the inverse of the curvature scale used by the other strategies; `update` changes the memory and `sigma` without setting `matrixChanged`, so a solve between `update` and `updateLogBarrierDiagonal` would use a middle matrix of another size (the solver always calls them in the safe order).
- **F28 (primal decomposition, proved: `C45_tangent_false`, `C45_success_without_convergence`, `C45_num_iterations_false`, `C25_too_few`).** (a) With `nc == n` the coupled part is copied from `x` without the index list (hiopAlgPrimalDecomp.cpp:1873-1875, also :1029-1031 and others), while the evaluator uses the list: for an index list that is a permutation other than `0,1,…` the recourse terms are evaluated at permuted arguments and the approximation is not tangent at the current point. (b) `run_single` always returns `Solve_Success` and `run` returns the status of the last master solve, so reaching `max_iter` without convergence is reported as success. (c) `getNumIterations` is documented as the number of master solves; it is two less. (d) The error measure documented as the predicted decrease of the model is computed with the coefficient of the next model (`get_alpha_f` is called before `check_convergence_*`); `C45_convg_partial` gives the exact difference. (e) With fewer recourse terms than evaluator ranks the solver aborts on an assert, and reads past the index array when asserts are off. Read but not modelled: `post_recv_end_signal`/`post_send_end_signal` (:104-120) give MPI the address of a local variable that is gone when the operation completes; `stopping_criteria` passes an integer to `%e` and a double to `%d`; return codes of the master solve and of the recourse callbacks are ignored; `set_verbosity` of `HessianApprox` asserts at most 3 but receives up to 12; option `accum_local` has default "false", which is not among its own allowed values; `alpha_min=1e3, alpha_max=1` pass the option ranges and abort on an assert; `set_x0` of the evaluator tests the wrong pointer; evaluators free request objects of result sends without completing them.
- **F29 (options, proved: `C26_nan_false`, `C26_rejected_false`, `C26_hessian_kkt_false`, `C26_pridec_default_false`).** (a) The range test `value<lb || value>ub` accepts NaN: `tolerance nan` in a file or `SetNumericValue("tolerance", NAN)` is stored. (b) A value that is refused still marks the option as set by the user (hiopOptions.cpp:292-297 precedes the range test): refusing `comp_tol=1e30` when `tolerance=1e-2` changes `comp_tol` from 1e-4 to 1e-2. For the same reason a refused value in the file blocks every later run-time setting. (c) `SetIntegerValue` and `SetStringValue` never set `specifiedAtRuntime`, so `is_user_defined` is false for such settings and `Hessian=quasinewton_approx` with `KKTLinsys=xdycyd` set at run time stays, although documented as invalid and repaired when it comes from a file. (d) `accum_local` has a default outside its range. Read but not proved: option values of type path (`checkpoint_file`, `options_file_fr_prob`, `options_file_master_prob`) are lower-cased, so files with capitals in their name cannot be named; `max_iter 1e5` in a file is read as 1 because extraction stops at the `e`, and trailing characters are ignored; the bounds `1-1e-20` and `1+1e-20` are 1.0 in double precision, so `kappa_w_plus=1` is admitted and the perturbation then never grows; `elastic_mode_bound_relax_final > elastic_mode_bound_relax_initial` is documented to fall back to defaults but nothing checks it; without Axom the checkpointing options lose their file mark.
- **F30 (CSR matrices, proved: `C28_empty_false`, `C28_empty_transpose_false`, `C28_transpose_twice_false`, `C28_zero_dim_false`, `C28_diagonal_false`).** (a) Forming a matrix, or a transpose, without entries returns before the row pointers are written; every later loop reads uninitialised memory. (b) The numeric transposition then stops on an assertion (null pointer without asserts). The condensed KKT system runs into both for problems without inequality Jacobian or Hessian entries. (c) A second symbolic transposition of the same shape stops on `row_starts_ == nullptr`. (d) Products and sums with a zero dimension write through null row pointers. (e) `addDiagonal` and `set_diagonal` silently skip rows whose diagonal is not in the pattern. (f) `timesVec` and many other members are `assert(false)`.
- **F31 (condensed KKT, proved: `C46_empty_jacobian_false`).** `KKTLinsys=condensed` stops on an assertion in the first iteration (null pointer without asserts) when the inequality Jacobian has no entries, for example for problems with bounds only; with an empty Hessian (linear programs) the row pointers of the Hessian are uninitialised. Read but not modelled: `hiopLinSolverSymSparseMA57::increase_pivot_tol` changes `pivot_tol_` only; the value used by MA57 is `cntl_[0]`, which is written once in the constructor, so raising the pivot tolerance would have no effect (no caller at this commit).
- **F32 (checkpointing, proved: `C47_resave_false`, `C47_room_false`, `C47_early_false`, `C47_fallback_false`, `C47_ranks_false`).** (a) `save_state_to_sidre_group` into a group already holding a checkpoint throws when the number of secant pairs has changed since. (b) Loading restores `l_max` of the saved run but reserves rows for the `secant_memory_len` of the loading one; with a shorter memory later updates write past the storage (`appendRow` checks only under `HIOP_DEEPCHECKS`). (c) A checkpoint taken before the first Hessian update (from the iteration callback of iteration 0) is saved with `l_curr=-1` and stops the loading solver on an assertion. (d) A load that fails midway keeps what it had loaded: barrier parameter and iteration count (reset by the fallback in `run`, not by the API), and the quasi-Newton Hessian (not reset at all: the memory then consists of zero vectors); `load_state_api_called_` stays set, so a second `run` skips the starting procedure. (e) A file without the expected group gives a null pointer dereference. (f) Not part of a checkpoint, hence reset on restart: the filter, the count of acceptable iterations, the initial errors used by relative tolerances, bounds changed by the elastic mode.
- **F33 (least-squares multipliers).** In the sparse computation a failed solve sets the multipliers to zero and reports success, and any nonnegative return of the factorization is accepted (`C35_sparse` states the zero case). `hiopMatrixMDS::timesMatTrans` ignores its `alpha` argument (its callers pass 1).
- **F34 (distributed runs, proved: `C34_is_equal_hang`).** `hiopVectorPar::is_equal` returns `false` before its `MPI_Allreduce` on a rank whose local sizes differ; with different partitions of equal global size the other ranks hang. Read but not modelled: without MPI `allocRSVectorDistrib` asserts `nlen==1` although it receives `nranks+1 = 2`; `projectIntoBounds` failing on one rank calls `exit(-1)` on that rank only.
- **F35 (restoration termination test, proved: `C48_stop_false`, `C48_obj_base`).** `hiopFRProb*::eval_f` evaluates the base objective at its work vector, which at that point holds `DR*(x - x_ref)` instead of `x`; `iterate_callback` then tests the base filter with that value. A point the filter rejects can end the restoration (and vice versa). The same call passes `new_x` on, so a base problem that caches by `new_x` also evaluates its constraints at the wrong point.
- **F36 (restoration Hessian, proved: `C48_hessian_factor_false`, `C48_setHessFR_repeated_false`).** `eval_Hess_Lagr` of the restoration problem hides its `obj_factor` argument with a local variable: the proximity term always enters with factor 1. `set_Hess_FR` counts diagonal entries by position and fails its assertion (or writes past the array) when the base Hessian triplets repeat a diagonal position.
- **F37 (restoration inside restoration, proved: `C48_force_false`).** `force_update_x` recomputes p, n from the base solver's stored constraint bodies, which belong to the base iterate, not to the `x` it was given; the constraints of the subproblem are then violated.
- **F38 (restoration, failing callbacks, proved: `C48_failure_false`).** Return values of the base callbacks are ignored; the restoration problem reports success with stale values.
- **F39 (restoration, read but not modelled).** `get_prob_info` leaves the problem type unset for a nonlinear base; the dense class leaves part of the type arrays unset and uses global offsets on local vectors with more than one rank; the option `mu0` of the inner solver is `max(mu, getInfeasInfNorm)` while the subproblem uses `max(mu, get_nrmInf_bar_feasib)`; the proximity weight changes in the iterate callback while the stored objective at the current point is not re-evaluated; an inner solve that converges with negligible violation but rejected by the filter is reported as `Infeasible_Problem`.
- **F40 (`new_x` in restorations, proved: `C49_restoration_false`).** The restoration problem passes its own `new_x` on but evaluates the base objective at another point (F35), so the base problem sees `new_x = false` with a point it has not seen in the call before. With removal of fixed variables (`FixedVarsRemover::apply_inv_to_x` returns its cached array when `new_x` is false, hiopNlpTransforms.hpp:175-181) the wrong point reaches even users without caches. Also (`C49_no_direction_false`), when no search direction can be computed in either pass and the line-search status still admits the step, derivatives are evaluated with `new_x = false` at the old trial point.
- **F41 (values after a restoration, proved: `C50_soft_restoration`, `C50_robust_restoration`, `C50_restoration_false`).** After soft restoration the gradient, Jacobian and Hessian are never evaluated at the new iterate. After a solved restoration problem `reset_var_from_fr_sol` evaluates into `_f_nlp`, `_c`, `_d`, but the main loop then executes `_f_nlp = _f_nlp_trial` and exchanges `_c`, `_c_trial` (`_d`, `_d_trial`): the values used are those of the last trial point of soft restoration; the Hessian is not re-evaluated.
- **F42 (unreported failures, proved: `C50_failure_false`).** A failing user function in soft restoration is swallowed; the return value of `startingProcedure` is ignored by all callers, so without assertions a failing starting point does not end the run.
- **F43 (stale position of the regularization, proved: `C51_nonsym_refresh_false`).** `convert_to_csr_arrays` (hiopMatrixSparseTriplet.cpp:1301-1306) looks for the new position of the additional diagonal value by searching `ind_temp` for `ind_temp[old]`, which gives back `old`. When the row is not yet sorted the value is added to another entry of the row by every `matrixChanged` after the first. The triplets of the full KKT system of a problem with an off-diagonal Hessian entry come in such an order (hiopKKTLinSysSparse.cpp:930-933).
- **F44 (PARDISO and upper triangles, proved: `C51_pardiso_upper_false`).** The header of the symmetric triplet matrix documents the upper triangle (hiopMatrixSparseTriplet.hpp:365), the source file the lower one (hiopMatrixSparseTriplet.cpp:921), the condensed systems require the upper one (hiopMatrixSparseTriplet.cpp:990, 1386) and the PARDISO wrapper the lower one (hiopLinSolverSparsePARDISO.cpp:113). The Hessian triplets are copied as the user gives them, so with the upper triangle PARDISO ignores the off-diagonal Hessian entries. The other wrappers store both triangles and are not affected.
- **F45 (return values of solver wrappers, proved in C68: `C68_pardiso_false`, `C68_strumpack_false`, `C68_ginkgo_false`, `C68_ma57_hang_false`).** `solve` of the PARDISO, STRUMPACK, Ginkgo and ReSolve wrappers returns true whatever the library reports (errors are only asserted); STRUMPACK returns 0 negative eigenvalues when its inertia computation fails; the `default:` branch of `matrixChanged` of the MA57 wrapper does not leave the loop when assertions are off.
- **F46 (inertia tolerance, proved: `C52_small_false`).** The pivots of the dense factorization are compared with the absolute tolerance 1e-14 (hiopLinSolverSymDenseLapack.hpp:150-160), so badly scaled nonsingular matrices are reported singular and get a dual perturbation. The pivot of a one by one block is compared itself, the ones of a two by two block after division by its off-diagonal entry.
- **F47 (inertia threshold, proved: `C53_mds_threshold_false`).** `factorizeWithCurvCheck` of the mixed dense-sparse system counts entries `< -1e-14` as negative and entries with absolute value `< 1e-14` as zero (hiopKKTLinSysMDS.cpp:88-97); an entry equal to `-1e-14` falls in neither class and the step is accepted with negative curvature.
- **F48 (compound vectors, proved: `C55_addLogBarrierGrad_false`, `C55_addVector_false`, `C55_addVector_ignored`, `C55_project_false`).** `addLogBarrierGrad` casts its pattern argument twice and never reads `x` (hiopVectorCompoundPD.cpp:740-750); `addVector` stores a part without counting it, so every loop ignores it (1013-1017); `projectIntoBounds_local` discards the answers of the parts and returns true (793-813). None is called by the present solver (compound vectors serve the Krylov refinement only). `is_equal` asserts false and then returns nothing.
- **F49 (range copies, proved: `C56_negative_start_false`).** `copyToStarting(dest, start)` with a negative start passes its assertions and writes at the beginning of `dest` (hiopVectorPar.cpp:294-313). `copyToStartingAt_w_pattern` checks the size only after it has written (325-329). `copy_from_starting_at` uses global offsets as if they were local when the vector is distributed over several processes (238-254), and `startingAtCopyToStartingAt_w_pattern` does not check the size of its pattern.
- **F50 (full sparse system, proved: `C57_later_calls_false`, `C57_absent_kept`).** `Hx_` and `Hd_` are allocated without being initialized and `build_kkt_matrix` adds the perturbations to them on every call without clearing them (hiopKKTLinSysSparse.cpp:1022-1038), so after the first perturbed factorization every matrix contains the sum of all earlier perturbations (and, before that, whatever the memory held). Unpacking leaves the entries of absent bounds alone (1147-1158); `dir` is cleared by `selectPattern` (hiopAlgFilterIPM.cpp:150-154) but `soc_dir` (183) is not, since the later `if(!soc_dir)` is never true, so second-order corrections with `KKTLinsys=full` carry uninitialized entries.
- **F51 (dense matrices, proved: `C58_timesMat_empty_false`, `C58_transTimesMat_empty_false`, `C58_addSubDiagonalFrom_false`, `C58_copyFrom_empty_false`).** `timesMat` with an empty inner dimension returns `W` unscaled in an MPI build and calls DGEMM with an illegal leading dimension in a serial build (hiopMatrixDenseRowMajor.cpp:537-611); `transTimesMat` with an `X` without columns does the latter as well (616-641). The assertion of `addSubDiagonal(start, alpha, d, src, num)` compares `num` with the size of `d` and forgets `src`, so it lets reads past the end of `d` through (735-753). `copyFrom` of a matrix without storage sets the own row pointer to null, and the storage is lost: a later `appendRow` writes through a null pointer (139-149). Read, not modelled: the copy constructor does not set `comm_size_` (111-127), which `set_Jac_FR` uses.
- **F52 (normal equations, proved: `C59_first_jacobian_false`, `C59_dual_update_false`, `C59_dual_first_kind_false`, `C59_inertia_false`, `C59_any_inertia_accepted`, `C59_empty_false`).** The stacked Jacobian and the Hessian diagonal are taken from the first call and never refreshed; the header documents constant Jacobians, nothing checks it (hiopKKTLinSysSparseNormalEqn.cpp). The dual-first perturbation announces a dual update even when it changed the primal perturbation, and on a dual update the product J D^{-1} J' is not refreshed, so the matrix belongs to an older perturbation. The number of negative eigenvalues is replaced by the required one unless the solver reports -1, so any inertia is accepted although the CPU solver is MA57 and not a Cholesky factorization; with an indefinite diagonal Hessian even a positive definite normal matrix does not imply the required inertia. Without stored Jacobian entries the first call stops on an assertion. Read, not modelled: the vectors of the two diagonals are leaked when reallocated; a zero primal diagonal divides by zero (the model has the field convention, `C59_newton_partial` assumes it away).
- **F53 (mixed dense-sparse matrices, proved: `C60_timesMatTrans_alpha_false`, `C60_addMatrix_copyFrom_false`, `C60_symCopyRowsFrom_false`, `C60_sym_rows_false`).** `timesMatTrans(beta, W, alpha, X)` does not use `alpha` (hiopMatrixMDS.hpp:94-100; the callers in the code pass 1). `addMatrix` and `copyFrom` end in assertions of the triplet class. `copyRowsFrom` of the symmetric class hands the mixed matrix to both blocks, whose casts throw (303-308); `row_max_abs_value` and `scale_row` of the symmetric class give the full vector to both blocks, whose size assertions fail (410-426).
- **F54 (Kron reduction and complex matrices, proved: `C61_slice_from_sym_false`, `C61_unsymmetric_false`, `C61_solve_failure_false`, `C61_singular_false`, `C61_dense_times_vec_false`, `C61_apply_empty_false`, `C61_second_go_false`, `C61_slice_unsorted_false`, `C61_slice_duplicates_false`).** `new_sliceFromSym` counts with `kj=0` but fills with `kj=ki` (hiopMatrixComplexSparseTriplet.cpp:254, 333): entries are lost and the end of the new arrays stays uninitialized and is then sorted. `go` uses `Yba^T` for `Yab` (hiopKronReduction.cpp:75-76), right only for symmetric matrices; it does not look at the answer of `solve` (67); UMFPACK answers a positive status for a singular matrix, which is taken for success (56; hiopLinSolverUMFPACKZ.cpp:123). `timesVec` without columns scales with the number of columns (hiopMatrixComplexDense.cpp:162-164), so that `apply_nonaux_to_aux` leaves its output unchanged when there are no nonauxiliary nodes. A second `go` fails the assertion at line 64. The comment of `apply_nonaux_to_aux` promises `(Ybb\\Yba)*v`; the code computes its negative, which is what the network needs.
- **F55 (RAJA triplet kernels, proved: `C62_*_refuted`).** `transAddToSymDenseMatrixUpperTriangle`, `addUpperTriangleToSymDenseMatrixUpperTriangle` and `addSubDiagTo` of the RAJA triplet matrix add with a plain `+=` in a parallel loop over triplets; with two triplets at one position, which the host adds up, an update can be lost. `setSubmatrixToConstantDiag_w_colpattern` and `_w_rowpattern` carry each other's assertions (hiopMatrixRajaSparseTripletImpl.hpp:1591-1757) and refuse legal destinations. `copySubmatrixFromTrans` asserts the sizes of the untransposed source. `copySubmatrixFrom` with `offdiag_only` writes entry `i` to position `k+i` and leaves the positions of the diagonal entries untouched. `copyRowsBlockFrom` uses `row_starts[1+dest]==0` as "not yet registered": a block whose first row is empty (and nothing before it) stops at the assertion when it is assembled a second time; the host buffer `next_row_nnz` is never freed. `set_Hess_FR` keeps a null pointer when the row starts exist already and an index array is passed again, and asserts that they exist when there is no base Hessian. `row_max_abs_value` needs sorted rows, the host version does not. The assertion that `addMDinvNtransToSymDeMatUTri` stays in the upper triangle exists only under `HIOP_DEEPCHECKS` on the device.
- **F56 (RAJA vectors, proved: `C63_*_refuted`).** `copyToStartingAt_w_pattern` computes the index array of the pattern once and keeps it in `idx_cumsum_`; a later call on the same vector with another pattern packs the entries of the first pattern. `axpy(alpha, x, i)` loops over the length of the vector although its assertion admits shorter index vectors, and adds without atomics, so repeated indexes lose updates. `projectIntoBounds_local` fails when any `xu < xl`, also where a bound is absent; the host looks only at two-sided components (the solver's infinite values hide this). `is_equal` does not compare sizes and reads past the end of a shorter vector. `startingAtCopyToStartingAt_w_pattern` is `assert(false)`, so the unreduced KKT system cannot be assembled with RAJA vectors. The host `copy_from_starting_at` computes `local_end_idx = start_index_in_array - glob_il_` when fewer elements are copied than the vector has, and copies nothing.
- **F57 (RAJA dense matrix, proved: `C64_*_refuted`).** `scale_row(v, inv_scale)` never looks at `inv_scale` and multiplies the rows also when the inverse is asked for. `copyFrom(matrix)` copies `n*max_rows_` elements although it only asserts that the sizes in use agree, so a source allocated for fewer rows is read beyond its end; `copy_to(buffer)` writes `n*max_rows_` elements and overruns a buffer of `m*n` elements when rows are spare. `timesMat` built with MPI returns `W` without the factor `beta` when the inner dimension is empty. `addUpperTriangleToSymDenseMatrixUpperTriangle` has no size checks, and `addSubDiagonal(start, alpha, d, src, num)` only checks `num` against the whole vector.
- **F58 (default options, proved: `C65_default_sparse_false`, `C65_stable_sparse_false`).** `linsol_mode` is `stable` by default, which switches safe mode on before the first iteration. The (x, yc, yd) system (the default one for sparse problems) and the full one assert that safe mode is off when they create their solver. With assertions on, every sparse problem stops in its first iteration under the default options; without assertions the run goes on and the check has no effect.
- **F59 (solver choice, proved: `C65_*_false`).** A solver named in `linear_solver_sparse` that is not in the build leads to a failed assertion, not to the documented fallback. The (x, d, yc, yd) system in hybrid mode with `auto` creates a solver and returns a null pointer, and with `pardiso` creates MA57. The full system ignores the option. The normal equations with a named solver other than MA57 stop at an assertion. `auto` chooses STRUMPACK when it is the only solver, and then asserts that the acceptor is not the default one. In the stable mode the (x, d, yc, yd) system always uses MA57, whatever was named, and a request for the condensed system is replaced by (x, d, yc, yd) with MA57 (`C65_stable_xdycyd`).
- **F60 (inertia and safe mode, proved: `C65_required_false`, `C65_ginkgo_inertia_false`, `C65_mds_stays_safe_false`).** Without RAJA the condensed system with the inertia-correcting acceptor requires as many negative eigenvalues as there are constraints, although its matrix should have none, so no good matrix is accepted. Ginkgo reports 0 or -1 and is still allowed with that acceptor. For mixed dense-sparse problems the iteration at which safe mode was entered is not recorded (it stays at 100000), so the return to the fast solver, which the code announces after ten iterations, does not happen before iteration 100011. Read but not modelled: `switch_to_fast_KKT` deletes a null pointer and leaks the old object.
- **F61 (C interface, proved: `C66_codes_ignored_false`, `C66_runs`).** The return codes of all C callbacks are ignored: the wrapper classes return true after every callback. No run through the C interface can end with `Error_In_User_Function`, and the solver goes on with whatever the output arrays contain.
- **F62 (C interface, proved: `C66_never_new_x_false`, `C66_new_x_false`).** `eval_f` and `eval_grad_f` of the wrapper classes pass the literal 0 for `new_x`. Since the solver announces new points only with the objective, no C or Fortran callback is ever told that a point is new; a user that caches on `new_x` computes with a point it never received.
- **F63 (results and memory, proved: `C66_mds_status_false`, `C66_fortran_status_false`, `C66_fortran_leak_false`, `C66_sparse_solver`).** `hiop_mds_solve_problem` checks `status<=User_Stopped`, which holds for every status including all errors, and does not store it; the Fortran functions return no status. `deletehiopsparseprob` and `deletehiopdenseprob` do not free the copy of the starting point. Sparse problems created through C use `xdycyd` in the default stable mode, hence MA57 only: without COINHSL every solve stops at a failed assertion although other solvers may be present.
- **F64 (Ipopt adapter, proved: `C67_rows`, `C67_order_false`).** With separate calls the mixed and the sparse adapter put the sparse entries of the `i`-th inequality in row `n_eq + i` and those of the `i`-th equality in row `i`, while `eval_g` and the dense part use the user's numbering. Whenever an inequality precedes an equality, Ipopt gets constraints in one order and their sparse derivatives in another.
- **F65 (Ipopt adapter, proved: `C67_failure_false`, `C67_dense_one_call_false`).** If the call for the equalities fails and that for the inequalities succeeds, `eval_g` returns true and leaves the equality entries unchanged, and `eval_jac_g` returns true with an array filled only in part (or stops at an assertion). The dense adapter has no one-call path: problems that implement only the call for all constraints, which HiOp accepts, fail at the first evaluation.
- **F66 (ReSolve, proved: `C68_resolve_stale_false`, `C68_resolve_singular_false`, `C68_resolve_stuck`).** With the `rf` refactorization the first solve uses the factors that KLU computed for the first matrix, even if the matrix was refactorized since: two factorizations before the first solve give the solution of the wrong system. Once a factorization has succeeded the status of later ones is ignored: singular matrices are reported as factorized. A solve after a failed factorization frees the symbolic factorization, after which no factorization succeeds any more.
- **F67 (other wrappers, proved: `C68_magma_nopiv_false`, `C68_chol_false`, `C68_ma57_warning_false`, `C68_pardiso_general_false`).** MAGMA without pivoting returns `true`, that is 1 negative eigenvalue, for an empty matrix. The Cholesky wrapper ignores the status of the search for zero pivots. MA57: every warning other than 4 stops the program if assertions are on. The wrappers for general systems report success for singular matrices. MA57's `increase_pivot_tol` changes a member that is copied into the library's settings only by the constructor, so it would have no effect (nobody calls it).
- **F68 (callbacks, proved: `C69_iterate_scaled_false`, `C69_duals_scaled_false`, `C69_iterate_removed_false`, `C69_full_copies_false`, `C69_force_refused_false`).** With scaling, `iterate_callback` gets the user's objective but scaled constraint values and multipliers (`user_callback_solution` unscales them). `user_callback_solution` changes the iterate in place and `getDualSolutions` then multiplies the bound multipliers by the objective factor a second time. With removed variables both callbacks get the reduced point and announce the reduced number of variables. `user_callback_full_iterate` copies the duals of the constraint bounds over those of the variable bounds when it copies to the host; nobody calls it, so `iterate_full_callback` is never called at all. `force_update_x` returning false does not stop the run with `User_Stopped` as documented: it fails an assertion or is ignored.
- **F69 (relaxed equalities, proved: `C70_infinite_false`).** An equality with a right-hand side close to 1e20 loses a side when its relaxed bound passes 1e20, and is then not enforced.
- **F70 (device vectors with patterns, proved: `C71_copyFromSel_refuted`, `C71_axpySel_refuted`, `C71_allPositiveSel_refuted`).** On CUDA and HIP `copy_from_w_pattern` and `axpy_w_pattern` set the elements that are not selected to zero (the host leaves them alone; `adjust_bounds` uses both), and `allPositive_w_patternSelect` is false as soon as one element is not selected; `compute_safe_slacks` asserts it.
- **F71 (device step length, proved: `C71_fractionToBdry_refuted`, `C71_empty_refuted`).** On CUDA and HIP the step to the boundary is not cut off at 1; `hiopIterate::fractionToTheBdry` starts from 10, so a dual step of up to 10 results when all bound multipliers decrease. For empty vectors (a problem without inequalities) it reads behind the end of an array, as do `min`, `allPositive` and `projectIntoBounds`.
- **F72 (device projection, barrier and types, proved: `C71_project_refuted`, `C71_logBarrier_refuted`, `C71_setArrayConst_refuted`).** `projectIntoBounds` fails for equal bounds and for absent bounds that are inverted; the barrier ignores selected elements that are not positive; `set_array_from_to` with the type `hiopLinear` (0) fails an assertion meant for a null pointer.
- **F73 (device integer vectors, proved: `C71_intSetToConstant_exact`, `C71_intSetToConstant_refuted`).** `set_to_zero` and `set_to_constant` pass the number of elements to `cudaMemset`/`hipMemset`, which counts bytes: three quarters of the vector keep their contents, and the constant 1 becomes 16843009. Indexed `axpy` and packing have the defects of the RAJA backend (`C71_axpyIdx_refuted`, `C71_pack_refuted`).
- **F74 (order of lines, proved: `C72_order_refuted`, `C72_tolerance_first`, `C72_tolerance_last`).** `ensure_consistence` runs after every line: `acceptable_tolerance 1e-9` before `tolerance 1e-10` is raised to 1e-8, the other order gives 1e-9.
- **F75 (printed listing, proved: `C72_reload_refuted`, `C72_digits_refuted`, `C72_blank_refuted`, `C72_empty_refuted`, `C72_kkt_refuted`).** The listing has four significant digits: `tau_min` 0.99996 is printed as `1.000e+00`, which is out of range and replaced by the default. String values that are empty or contain blanks cannot be read back. Because every option of the file counts as set by the user, options the solver would adjust silently are treated differently.
- **F76 (format string, proved: `C73_line_refuted`, `C73_call_refuted`, `C73_defined_exact`).** `log_printf` passes formatted text to `printf` and `printf_error` as a format (hiopOptions.cpp:483, 485): a per cent sign in a line of an options file or in a value passed to a setter can be undefined behaviour. While there is no logger yet, messages go to the standard error stream on every rank whatever the verbosity is.
- **F77 (leaks, proved: `C74_two_runs_refuted`, `C74_switch_refuted`, exact account `C74_leak_exact`).** Each call of `run` assigns a new object to `pd_perturb_` without deleting the previous one (hiopAlgFilterIPM.cpp:1054, 2164-2176), so every run after the first one leaks. `switch_to_fast_KKT` deletes the null result of a `dynamic_cast` instead of the linear system (line 2013), so every switch back leaks a complete linear system with its factorization.
- **F78 (second runs, proved: `C75_*_refuted`).** A problem object is reinitialized only if `fixed_var` or `fixed_var_tolerance` changed (hiopNlpFormulation.cpp:224-231). Otherwise a second run (a) inherits bounds that the first one adjusted or reset; (b) appends a second scaling, computed from already scaled derivatives, and `get_obj_scale` then knows the second one only; (c) ignores changed `bound_relax_perturb`, `elastic_mode*`, even if they are changed between the construction of the solver and its first run; (d) keeps the quasi-Newton memory and ignores changed `secant_memory_len`, `sigma0`; (e) after a load never uses the starting procedure again, and the loaded barrier parameter is overwritten by `reload_options` (hiopAlgFilterIPM.cpp:223). If it is reinitialized, the transformations are deleted but `nlp_scaling_` and `relax_bounds_` keep pointing at them: (f) without a new scaling, `get_obj_scale` reads a deleted object (`C75_dangling_refuted`). Not modelled: `reset_bounds` (line 1420) dereferences `relax_bounds_`, which is null if `bound_relax_perturb` is 0 while `elastic_mode` is on; no option check excludes this.
- **F79 (iterative refinement on the GPU, proved: `C76_statistics_refuted`, `C76_one_unknown_refuted`, `C76_guard_refuted`).** (a) If the convergence condition holds when a cycle starts, the call reports 0 iterations, and at each restart the reported initial residual is overwritten by the current one (IterativeRefinement.cpp:285-300). (b) If the exact solution is found the next Krylov vector is zero, and a build with assertions aborts in GramSchmidt; for one unknown that happens in every call with work to do. (c) A rotation with `gam <= 1e-18` is divided by `1e-16` instead: it is not orthogonal then, so the estimate is not the residual, and a call can stop with residual `0.6` although the tolerance is `1e-3`. (d) Not modelled: the tolerance is relative to the initial residual but the warning in triangular_solve compares with `tol*||b||`; the function returns true whether or not the refinement converged; `refactorize` returns 0 in all cases; the result of `klu_solve` is ignored.
- **F80 (ReSolve, read in the code, not proved).** (a) `hiopLinSolverSymSparseReSolve::solve` logs a failed triangular solve and then returns true (hiopLinSolverSparseReSolve.cpp:325-334). (b) With silent output a failed GLU solve is not detected: the test is `sp_status_ != 0 && !silent_output_` (RefactorizationSolver.cpp:261). (c) The result of `refactorize` is not used by `matrixChanged` (hiopLinSolverSparseReSolve.cpp:305-306). (d) When the first factorization fails, `matrixChanged` returns without stopping the timer it started (hiopLinSolverSparseReSolve.cpp:285, 298). (e) The destructor does not destroy `handle_rf_` (RefactorizationSolver.cpp:93-129).
- **F81 (C78).** `compute_directions_w_IR` ignores failures of the inner linear solve: the preconditioner's return value is not used by BiCGStab and a failed refinement is turned into success (hiopKKTLinSys.cpp:950-954), so with the default `ir_outer_maxit = 8` the safe-mode fallback after a failed solve is never triggered by this call, and the caller can receive the zero direction (`C78_failed_solve_refuted`). A right-hand side longer than `1e20` also gives the zero direction with success (`C78_long_rhs_zero_direction`), because `rho > 1E+40` counts as breakdown before the first step.
- **F82 (C79).** The binary search in MatrixSparseCsrCudaKernels.cu is a do-while loop: on a row without entries it looks at the last entry of the row above. In builds without assertions `set_diagonal`, `addDiagonal` and `extract_diagonal` then change or return the entry `(i-1, i)` (`C79_empty_row_refuted`); with assertions the device stops. This is reachable: in hybrid mode `hiopKKTLinSysSparseCondensed::build_kkt_matrix` sets the diagonal of the upper triangle of the user's Hessian to zero (hiopKKTLinSysSparseCondensed.cpp:273, 311), so for a Hessian with an empty row the entry above is lost and the condensed matrix is wrong (`C79_hessian_refuted`), while the host computes the right one (C46). Also: `(R+L)/2` overflows beyond `2^30` nonzeros (`C79_overflow_refuted`), unordered triplets are accepted on the device (`C79_unsorted_refuted`), and for no triplets the row pointers are left uninitialised (`C79_empty_refuted`).
- **F83 (C80).** The end of `MassIPTwoVec_kernel` (KrylovSolverKernels.cu:120-142) lets 32 threads add `s[t+32]`, `s[t+16]`, …, `s[t+1]` with only `volatile` and no `__syncwarp`. This is right only if the threads of a warp run in lockstep. On devices with independent thread scheduling (compute capability 7.0 and later) the additions race, and the inner product of a vector with itself may come out as zero (`C80_inner_products_refuted`; `C80_unsynchronised` says which products the bad outcome sums). The build asks for architecture 35 unless the user gives another (CMakeLists.txt:244-245).
- **F84 (C81).** In a build for CUDA or HIP, `mem_space = host` (or `HOST` given to the factory) makes RAJA objects whose arrays are in Umpire's host memory and whose loops are device kernels (`C81_runs_refuted`; LinAlgFactory.cpp:112-122, 192-202, 275-297, 395-402, 513-520); unless the device can read pageable host memory every loop is an illegal access. The comment at hiopOptions.cpp:1269-1271 says RAJA on a GPU requires `device`, but the option accepts `host`. Conversely a RAJA build without a GPU accepts `device` and `um`: vectors then stop on an assertion or Umpire throws (`C81_refusal_refuted`), while sparse matrices silently use host memory (`C81_placement_refuted`). `create_matrix_sparse_csr` returns a CUDA matrix for every name but `default`, also for `host` (`C81_csr_refuted`). `assert(mem_space_upper == "host")` (LinAlgFactory.cpp:335, 427, 545) can never hold, and `assert(mem_space_upper == "DEVICE")` under `mem_space_upper == "CUDA"` (359, 444, 562) neither.
- **F85 (C82).** `tmSolverInternal` is started while running and stopped twice: `compute_nlp_infeasib_onenorm` (hiopResidual.cpp:106-150) starts and stops it between the `start` and `stop` of its callers (hiopAlgFilterIPM.cpp:1310-1336, 2534-2555), so its time is counted twice in every trial, and the quasi-Newton method stops the timer at 1336 and again at 1413-1420 without a `start`, so an accepted trial is counted up to three times (`C82_internal_newton`, `C82_internal_qn`); "Hiop internal time" can exceed "Total time" (`C82_internal_refuted`). `end_optimiz_iteration` is inside the loop over linear solves (hiopAlgFilterIPM.cpp:2461) and `start_optimiz_iteration` outside (2339): a linear solve repeated after a failed line search counts the first solve three times and the line search, user's functions included, as KKT time (`C82_kkt_repeated`). `factorize_inertia_free` (hiopKKTLinSys.cpp:401-444) restarts its timer for repeated factorizations: the first one is lost and the last one counted twice (`C82_fact_repeated`). The standard deviation over the ranks is divided by the number of ranks instead of its square root (`C82_spread`), and that of the evaluations leaves out the Hessian (hiopRunStats.hpp:374-378). PARDISO, STRUMPACK and Ginkgo start `tmFactTime` and never stop it, so their factorization time is reported as zero (by inspection).
- **F86 (C83).** For a dense problem on several ranks whose interface gives no distribution (`get_vecdistrib_info` returns false, the default, hiopInterface.hpp:271), the constructor of `hiopFRProbDense` writes only the first and the last entry of `col_partition_` (hiopFRProb.cpp:1438-1449) and the test `if(col_partition_)` that follows is always true: vectors and Jacobian are created with, and `get_vecdistrib_info` hands to the solver, entries that were never written (`C83_partition_refuted`).
- **F87 (C83).** `hiopFRProbDense::get_vars_info` writes the kinds of the variables of the base problem only, and `get_cons_info` the kinds of the first `m_ineq` constraints only (hiopFRProb.cpp:1563-1565, 1591-1593); the solver copies the others out of freshly allocated arrays (hiopNlpFormulation.cpp:594, 602): `C83_var_kinds_refuted`, `C83_cons_kinds_refuted`. What is written says that the (possibly nonlinear) constraints are linear.
- **F88 (Fortran interface, proved: `C66_fortran_dense_layout_refuted`, `C66_fortran_dense_jacobian`).** The Jacobian array of a dense Fortran problem is read by rows, while Fortran stores two-dimensional arrays by columns: a procedure that declares its output `A(M, N)` hands over another matrix than it stores, for every problem with at least two variables and two constraints; `A(N, M)` with the derivative of constraint i by variable j in `A(j, i)` is right. The interface states no layout.
- **F89 (C84).** In a build with MPI, `fixed_var = remove` fails for every problem whose interface gives no distribution (`get_vecdistrib_info` returns false, the default, hiopInterface.hpp:271), also on a single rank: `vec_distrib_` is then null (hiopNlpFormulation.cpp:220-226) and is handed unconditionally to `setFSVectorDistrib` (286), which asserts that it is not (hiopNlpTransforms.cpp:100), and copies from it in a build without assertions: `C84_no_distribution_refuted`. On several ranks the counters of bounds are moreover multiplied by the number of ranks (`C84_replicated_counts_refuted`); `n_complem` enters the scaling of the optimality error (hiopAlgFilterIPM.cpp:651).
- **F90 (C85).** A run that returns `Err_Step_Computation` or `Error_In_User_Function` prints no termination message: these returns bypass `displayTerminationMsg` (hiopAlgFilterIPM.cpp:1504, 2766), which has a text for the former (905-911): `C85_step_error_silent_refuted`, `C85_user_error_silent_refuted`. When both attempts of an iteration of the Newton solver end at the refactorization limit (see C24_refactorization_limit_accepts_stale), the next line repeats the column of the iteration before: `C85_stale_column_refuted`. After a restoration the Newton solver prints 0 trial points and the quasi-Newton solver the number of the failed line search (1547, 2804).
- **F91 (C86).** `hiopVectorIntSeq::linspace` adds the increment once more after the last entry (hiopVectorIntSeq.cpp:123): signed overflow although all entries fit, as the documented precondition asks (`C86_linspace_host_refuted`). The device kernels compute `i*di` in `int` (VectorCudaKernels.cu:602, VectorHipKernels.cpp:597), which can overflow although all entries fit (`C86_linspace_device_refuted`). The library itself only asks for 0, 1, 2, ..., where neither happens (`C86_indices`).
- **F92 (C87).** `nlp_evaluated_` is initialised to false (hiopNlpFormulation.cpp:78) and never set, so the shortcuts for declared-linear and declared-quadratic problems are dead code and constant derivatives are evaluated at each iteration (`C87_evaluated_once_refuted`). Setting the flag would be unsafe: the test of `eval_grad_f` (hiopNlpFormulation.cpp:757) also skips the gradient of quadratic objectives, which is not constant (`C87_quadratic_test_refuted`).
- **F93 (C88).** (a) With fixed variables removed, `get_starting_point` and `get_warmstart_point` hand the user arrays for the bound multipliers of the reduced size together with the full number of variables (hiopNlpFormulation.cpp:790-800, 844-858): a user who fills them writes outside (`C88_removed_refuted`). (b) With `warm_start yes` the return value of `get_warmstart_point` is not looked at separately (hiopNlpFormulation.cpp:859-864, hiopAlgFilterIPM.cpp:311): for a user who only implements the method for the point, the constraint multipliers are copied from an uninitialised vector, the bound multipliers are zero and the point is not projected (`C88_warm_default_refuted`). (c) `duals_avail` set by a call that returns false stays in force when the method for the point succeeds (`C88_failed_call_refuted`). (d) The user's multipliers are not scaled with the objective and the constraints (`C88_scaled_refuted`), while the multipliers returned at the end are unscaled (C37).
- **F94 (C89).** (a) `run_single` (and `run`, `run_local`) deletes the approximation at the end (hiopAlgPrimalDecomp.cpp:1989, 1255, 1779) without telling the user's problem, which keeps the pointer given to `set_recourse_approx_evaluator`; calls after the run, and the basecase solve of the next run, find a dangling pointer (`C89_basecase_pointer_refuted`). (b) The setters do not repeat the checks of the options: `set_max_iteration(0)` gives a run that solves nothing, returns `Solve_Success` and leaves status and iteration number as they were, the status uninitialised in a new solver (`C89_no_iterations_refuted`); `set_alpha_min` above `set_alpha_max` gives coefficients below the minimum (`C89_bounds_refuted`). Read but not modelled: `getSolveStatus` is declared inline in the header and defined in the source file only, so it cannot be linked from user code.
- **F95 (read in the code, no theorem).** Found while reading code that is outside the model. `hiopLinSolverUMFPACKZ` releases its complex objects with the functions for real ones, `umfpack_di_free_*` (hiopLinSolverUMFPACKZ.cpp:41, 46). `hiopLinSolverCholCuSparse::do_symb_analysis` returns an uninitialised value for the ordering symamd-eigen (hiopLinSolverCholCuSparse.cpp:156-189; the caller at :232 does not look at it). The one-argument `apply_to_x` of the remover of fixed variables calls the inverse transformation (hiopNlpTransforms.hpp:184-189; no caller). The MAGMA solver without pivoting does not release the inertia buffer when the count fails (hiopLinSolverSymDenseMagma.cpp:393-411). The CSR matrices of ReSolve are not released when their size is zero, and allocating twice loses the first arrays (ReSolve/MatrixCsr.cpp:76-98). The primal decomposition solver with `mem_space device` copies the user's index list, which is in host memory, with a device copy (hiopAlgPrimalDecomp.cpp:663-664).
- **F96 (C90).** With `fixed_var = remove`, mixed and sparse problems are not supported, and nothing says so. The functions that allocate the Jacobians of a mixed problem assert `n_vars_ == nx_sparse+nx_dense` (hiopNlpFormulation.hpp:518-536), and `hiopNlpSparse::finalizeInitialization` asserts `nx == n_vars_` before the second initialization, which is the one in the first `run` (hiopNlpFormulation.cpp:2108, hiopAlgFilterIPM.cpp:102, 2105): both fail (`C90_mixed_aborts`, `C90_sparse_run_aborts`). Without assertions every Jacobian gets the reduced number of variables with the full point (`C90_jacobian_size_refuted`), every Hessian the reduced number and the solver's own shorter array, so that a user reads outside it (`C90_hessian_point_refuted`; hiopNlpFormulation.cpp:1845, 2062, 2076 do not call `apply_inv_to_x`), and a Hessian with `new_x` leaves the buffer stale for the calls after it (`C90_hessian_new_x_refuted`; no such call is made in a run).
- **F97 (C91).** `solve_soft_feasibility_restoration` leaves its loop after ten trial points rejected by the filter with the return value of the last multiplier update, which is true (hiopAlgFilterIPM.cpp:3304, 3322-3326, 3332): the caller takes the tenth point although the filter contains it (`C91_filter_refuted`). A failing user function is also returned as success (3278, 3300; `C91_user_error_refuted`, see F42). Every trial point but the last is evaluated twice (3275, 3298). Read in the code, not modelled: the direction of a further round is computed with the residual at the trial point but the step is taken from the current point (3281, 3286-3293).
- **F98 (C92).** (a) `writeMatToFile` takes entries above `1e-25` as nonzero and prints them with `%.20f` (hiopCSR_IO.hpp:111-116, 150): entries below `5e-21` are listed as nonzeros with the value 0, and the number of correct digits falls with the size of the entry (`C92_nonzero_refuted`). (b) The normal equation writes vectors but no matrix (hiopKKTLinSysSparseNormalEqn.cpp:367-369, 453): the first solve with `write_kkt` fails an assertion, and without assertions nothing is saved (`C92_normal_equation_refuted`). (c) The counter belongs to the system object: a second solver or system in the same directory replaces the files of the first (`C92_second_solver_refuted`). (d) Read in the code, not proved: `increase_pivot_tol` of MA57 (hiopLinSolverSymSparseMA57.cpp:254-262) is never called, and would have no effect, as the tolerance is handed to MA57 only in the constructor (75).
<!--F-->

# Formal model of ORNL-CEES/mfmg

The properties are in `properties.jsonl` (C01..), the claims about them in `MANIFEST.json`, the
mutation tests in `seeded/LOG.jsonl`. The Lean development is in `lean/Verif`, one namespace `Mfmg`:

* `Verif/Model/*`    – the model: one definition per modelled function, citing file and lines of /repo.
* `Verif/Spec/*`     – small specifications used in the statements, written without the model's helpers.
* `Verif/Lemmas/*`   – helper lemmas (no property statements).
* `Verif/Examples/*` – concrete meshes and hierarchies used in the examples.
* `Verif/Props/*`    – the property theorems `Cxx_...`, each followed by a concrete `example` that meets
  its hypotheses.

Naming of the theorems of a property:

* `Cxx_name` – part or all of the property.
* `Cxx_name_partial` – the property under an extra hypothesis; the doc comment says what is missing.
* `Cxx_name_violated` – the code does *not* have the property: either a witness with the wrong result,
  or, where possible, the exact behaviour for every input of the bad kind.

## Modelling conventions

* **Outcomes.** `Outcome α = ok a | throws msg | aborted | ub why`. Undefined behaviour (out-of-range
  access, null dereference, iterator past the end, use after free) is the distinct outcome `ub`. The
  debug-only macro `ASSERT` is modelled by a `debug : Bool` argument: it aborts in debug and does
  nothing in release (`include/mfmg/common/exceptions.hpp:44-57`); `ASSERT_THROW` throws in both.
  Statements that must hold in both builds quantify over `debug`.
* **Numbers.** Vectors and matrices are over a field (or `ℝ` when norms or square roots are involved):
  exact arithmetic, no rounding (except in C82). Index arithmetic is on `ℕ`/`ℤ`; wrap-around is modelled only where the
  property is about it (C10: `int` to `unsigned int`; C16: the iterator's difference type; the number
  of CUDA blocks for an empty launch; 32-bit thread numbers in C67 and C71).
* **Loops** are folds or structural recursion. The one loop that may not terminate
  (`apply_permutation_in_place`) takes fuel, and theorems state exactly when it terminates.
* **Several processes.** A distributed object is the list, by rank, of its local parts; a collective
  call is one function of the data of all processes. For C76 the processes run concurrently and a
  collective call is a step of all members of its communicator together.
* **Several threads.** CUDA kernels are run for every order of the threads; `WorkStream` for every
  legal schedule.
* **Histories.** Objects with state (device operators, matrices, solvers, multivectors, deflation) are
  state machines; theorems quantify over every list of calls.
* **External libraries** are parameters. What is assumed of each is listed under "Trusted base".

## Plan per property

| id | model | how it is proved |
|----|-------|------------------|
| C01 | `Hierarchy.apply` over a list of levels; work vectors with arbitrary initial contents | induction on the levels |
| C02 | same, smoother `x - B(Ax-b)` | induction; the cycle as a linear map |
| C03 | same | induction: zero rhs gives zero correction |
| C04 | same | induction on smoothing steps + C02 |
| C05 | same, with a bilinear form per level | induction on levels, adjoint calculus |
| C06 | constructor model | induction on levels |
| C07 | one correction step | algebra, completing the square |
| C08 | constructor as a state machine on level records with optional fields | induction on the level loop |
| C09 | event trace of the timer; stack machine | induction; refutation for every hierarchy with ≥ 3 levels |
| C10 | parameter reads; `int` to `unsigned` conversion | arithmetic; counting smoother calls |
| C11–C13, C54, C55 | mesh = cells, neighbour function, user-index map; the nested walks | invariants over the walk; refutation of C13 on every mesh |
| C14 | renumbering loop | invariant over the loop |
| C15 | set insertion loops | membership characterisation + sortedness |
| C16 | iterator `advance` with explicit past-the-end outcome | induction on the list |
| C17 | map-writing loops | fold characterisation, permutation invariance |
| C18 | string-list loop | refutation for all n ≥ 2 |
| C19 | string dispatch | case analysis |
| C20–C22 | triple-loop matrix assembly as entry accumulation | sums over agglomerates |
| C23 | cell-assembled operators, interior/halo patches | splitting of cell sums |
| C24, C25 | WorkStream with explicit copy/scratch objects and schedules | induction over schedules; refutations |
| C26, C27 | the recurrence over a real inner product space | induction with full orthogonality invariant |
| C28 | modified Gram–Schmidt with pivoting | invariant over the outer loop and over call histories |
| C29, C30 | two-pointer scan and purge loops on lists | loop invariants against brute-force spec |
| C31–C33 | driver loops with explicit out-of-bounds outcome | case analysis, refutations for families of operators |
| C34, C35 | `std::sort` as "some sorted permutation"; cycle-following loop with fuel | cycle invariant |
| C36, C56 | tree to XML text, and a reader for the generated grammar | round trip by induction on trees |
| C37, C57 | string dispatch of the factories | case analysis |
| C38 | column-wise assembly with threshold, any number of processes | entrywise |
| C39 | guess merge | entrywise |
| C40 | shifted matrix | algebra |
| C41, C60 | heap of vectors with shared handles | explicit aliasing |
| C42, C58, C59 | extraction loops | bounds |
| C43, C61 | allgatherv + scatter + local product | permutation argument, any thread order |
| C44 | row conversion with out-of-bounds outcome | loop invariant |
| C45, C62 | maps built by loops; permutation of rows, columns, vectors | injectivity invariants |
| C46, C63 | operators as a state machine over call histories | induction on histories; exact parity behaviour |
| C47 | device heap with addresses | invariant on the set of live allocations, over histories |
| C48 | set of live AMGX objects | invariant over histories |
| C49 | diagonal extraction kernel | any thread order; refutation on ranks not starting at 0 |
| C50 | counters over histories | characterisation; refutation |
| C51 | communication lists of all processes | set characterisation; refutation for unsymmetric patterns |
| C52, C53 | the cycle as in C05, C07 | induction on levels with energy inequalities |
| C64 | `check_restriction_matrix` on any number of processes | characterisation of acceptance; refutation for agglomerates without eigenvectors |
| C65 | the constructor with restrictors as matrices with sizes | the second restrictor has the finest level's width |
| C66 | host operators (assembled and matrix-free) as an algebra | induction on expression trees |
| C67 | device eigenvector kernels | index arithmetic, any thread order |
| C68 | allocations made by the device restrictor set-up | counting over agglomerates |
| C69 | device direct solvers | contracts of cuSOLVER; refutation on several processes |
| C70 | fast_ap's division of rows among agglomerates | arithmetic; refutation for unequal counts |
| C71 | the kernels with 32-bit thread numbers | equality with the kernels of C43, C49 below 2^31; refutation for empty launches |
| C72 | faces and boundary ids of a mesh and of a patch mesh | characterisation of the map built by the loops; refutation for id 0 |
| C73 | `CudaMatrixFreeOperator::multiply_transpose` on all processes | composition of C38, C44 and C61; refutation for processes without entries |
| C74 | the assembled restriction matrix and the coarse operator made from it | linear algebra on top of C20; refutation by counting dimensions |
| C75 | relaxation smoothers row by row, the hierarchy built from matrices | every row relaxation lowers the energy; induction over sweeps and levels (no symmetry of the smoother needed); compactness for the rate; several processes: each process's correction is bounded by its residual, two colours by a change of signs, Stieltjes matrices by passing to moduli |
| C76 | every process as a resumption that stops at collective calls; interleaving semantics over communicators | composition rule for programs that move together; refutations by an invariant of blocked states |
| C77 | the restriction matrix of C20 and the cycle of C75 together; agglomerate matrices as data with a lower bound of the omitted eigenvalues | smoothing property of a Gauss-Seidel sweep, approximation property of the assembled rows (weights sum to one), energy argument over the cycle |
| C78 | the Chebyshev preconditioner as deal.II documents it (interval, three-term recurrence, special cases of the degree) and the smoother around it; two levels, real numbers | eigenvectors of the scaled matrix turn the recurrence into Chebyshev polynomials; monotonicity of these outside [-1,1]; energy orthogonality; Krylov space argument for the counterexample |
| C79 | `get_diagonal` with owned and relevant index sets, the assembly of C20 process by process with possibly non-finite numbers | loop specifications by induction, refinement of the assembly of C20; refutation for zeros in the diagonal |
| C80 | `setup_restrictor` from the mesh and the parameters to the matrix, on all processes: dispatch, partitioner, patches, threads, assembly | composition of C11, C12, C14, C16, C20, C25, C77; sums over cells regrouped by agglomerates; refutation from C13 |
| C81 | the user's parameter tree as Boost stores it: reading and `put` by path, what the constructor reads and writes, what ML is given | laws of `put` by induction over path and tree; runs that do not write; refutations with any tree and any defaults |
| C82 | the cycle with the subtraction of vectors as a parameter; sparse products, Jacobi smoothing, weights as sequences of rounded operations on real numbers | pairs (exact, computed) with a size and an error, followed through smoothing and the recursion; relative errors of sums by induction; rounding to nearest as an instance |
| C83 | all objects of a program with their owners, references and reference counts; construction of the three kinds of hierarchies; release of members in the order of destruction; what an application dereferences | invariant of the counts and of the references through any program, also between the steps of a release; reachability by use compared with reachability by ownership |
| C84 | the hierarchy of C75 with any number of levels | smoothing takes a share of the energy no coarse vector represents (from the sweep estimate of C77 and the approximation in the energy), induction over the levels with the error split orthogonally in the energy; for the weaker approximation a lower bound of the preconditioner, by induction |
| C85 | all functions of the model that depend on `MFMG_DEBUG` | a relation between the outcomes of the two builds that is kept by sequencing, loops and case distinctions, so that it is proved function by function; by induction for loops and histories |
| C86 | an application as a list of statements on vector objects: `apply` with its local vectors, the smoothers with theirs | refinement of the functional model by induction over the levels; what statements write to; the same program with one object for two names |
| C87 | several such lists executed in any order, what each statement reads and writes, the object in which a direct solver keeps its arguments; the timer calls of two applications in any order | statements of a thread depend only on what it accesses, so that an invariant ties the common memory to the memory each thread would have alone; stack discipline of timer sections |
| C88 | incomplete factorisation without fill, the two triangular solves, each process on its own rows; the smoother and the hierarchy made with it | the matrix whose exact elimination the code performs, by induction over the rows; for Stieltjes matrices the pivots stay positive and the splitting is regular, so the energy decreases; an eigenvector of the smoothing step for a ring of four unknowns |
| C89 | the hierarchies of C75, C88 and C78, the assembly of the restriction, the local eigenproblems, the Lanczos solver and the distributed product, run with `A` and with `c A` | a simulation between the two runs: one lemma transports a cycle along maps of the levels, one lemma per smoother; the assembly loops by induction; the Lanczos loop by an invariant relating the two states; limits of the eigenvalue equations for the four violations |
| C90 | the hierarchies of C75, C88 and C78 and the assembly of the restriction, run with two numberings or two divisions of the unknowns | every model function commutes with a renaming of the indices (one lemma per function, then the transport lemma of C89); Jacobi through its closed form; assembly by induction on the list of agglomerates; the violations through the quadratic form of the triangular factors |
| C91 | the hierarchy on the device from its parts: operators with lazily computed transposes, products, Galerkin products, smoother, direct solvers, level loop and cycle, with the device memory | each part refines its matrix (relation `Stores`) and the memory grows by a known number; induction on smoothing steps and on the history of applications; comparison with the host through the textbook cycle |
| C92 | the end of the driver program: `SolverControl` and `SolverCG` around `Hierarchy::vmult` (`Model/ConjugateGradient`), on the hierarchies of C75 and C78 | the classical invariants as one induction over the loop: the residual is orthogonal to the space searched, directions are conjugate, the space contains the Krylov space; dimension gives termination, orthogonality optimality; universal counterexamples for standalone hierarchies and for cycles without smoothing, a concrete one for Gauss-Seidel |
| C93 | the solver of C92 on the hierarchies of C77 and C84 | a basis of eigenvectors of the preconditioned matrix (spectral theorem twice); steps with the reciprocals of the shifted Chebyshev roots as lengths are one of the iterations C92 compares with; growth of the Chebyshev polynomials outside the interval; the residual before the last step is above the tolerance, which bounds the number of steps |
| C94 | the smoother of C75 with the rows distributed to processes | the product of the correction and the residual is the energy on the processes (each process makes a forward and a backward sweep); the gain of a step is twice that energy minus the energy of the correction; a coupling factor below two then gives the smoothing property of C77 and with it the rates of C84 and C93; coupling factors for dominated rows and for neighbouring rows of the difference matrix; with one row on every process the alternating error loses at most one entry per step and the coarse vectors do not contain it |
| C95 | direct solvers, AMGX solve, handles, copies of matrices, products, smoother and eigenvectors on the device once more, with every call numbered and possibly failing, with the checks of debug and release builds, pending errors and a broken device | two relations between a program and the same program without faults, both closed under sequential composition: a return means no fault (checked calls), or a return leaves a mark or means no fault (unchecked calls and kernels); without faults the programs are those of C43, C45, C49, C61, C67, C69; for the violations one failing call, evaluated step by step |
| C96 | `main` of hierarchy_driver: options, the parameter tree with `put` and `put_child`, the loop over `hidden`, the choice of the problem, the entries read at its start | laws for reading after `put` (C81) and `put_child`, induction over the entries of `hidden`, case distinction |
| C97 | `CudaMatrixOperator::apply` and `transpose` as sequences of accesses to memory, interleaved in any order by any number of threads; the uses of operators in a cycle | invariant with an owner of each transposed matrix under construction; a schedule that leads to a race otherwise; measure for the end |
| C98 | the pipeline of C77 with eigenvectors that have residuals | the mixed terms of the energy contain residuals only and are absorbed; for the negation an error whose residual is orthogonal to the coarse vectors and small: the product with the first residual changes only as far as the sweeps take energy |
| C99 | the device code as programs in which the call with a given number throws; destructors of local objects run, raw pointers stay | each program has a list of the states at its throwing calls; the lists of parts are appended, induction over the agglomerates and over the attempts |
| C100 | the Lanczos solver of C26-C33 on a space split into the direction of the smallest eigenvector and the rest | the Krylov space contains the start vector with its unwanted part multiplied by a shifted Chebyshev polynomial; Rayleigh-Ritz and Temple's inequality; vectors orthogonal to the start vector bound the eigenvalues the filter compares with; induction over the loop for the tests |
| C101 | `lanczos_compute_eigenvalues_and_eigenvectors` with its parameters and the start vector of `set_initial_guess`, on the matrix of an agglomerate | the absolute values of an eigenvector for the smallest eigenvalue form one again when the entries off the diagonal are not positive; projection on the eigenspace gives the split of C100; the bound of C100 tends to zero; for the violation a rank-one change of twice the identity |
| C102 | the Lanczos solver of C26-C33 and the library's call of C101, with the number d of independent vectors A^i g | invariant: the Lanczos vectors span the same space as g, A g, ..., and the remainder is zero exactly at step d; a compactness argument gives a lower bound for all residuals before step d; Vandermonde for diagonal matrices |
| C103 | the Lanczos solver and the library's call of C101 without deflation | the vectors stay in the span of the components of the start vector, one for each eigenvalue; Ritz vectors below a bound are independent modulo the larger eigenspaces (counting dimensions); sharp statements with finite sets of distinct eigenvalues |
| C104 | the state of the AMGX library (on or off, session of each object) under histories of constructions, applications and destructions of solvers | invariant over histories: an object is usable exactly if no other AMGX solver has been destroyed since; characterisation of the programs that run; the same with a counting library |
| C105 | the lists of C51 with the patterns gathered from the world and read by the ranks of a communicator | refinement to C51 for the first processes; for every other communicator a diagonal matrix whose lists are wrong |
| C106 | the library's call of C101 with deflation (`Lanczos::solve` over its cycles) | invariant over the cycles: the vectors found are orthonormal and each cycle is a Lanczos run on their complement; from above enough independent vectors orthogonal to the ones found in the span of eigenvectors, for any number of eigenvectors per cycle, from below the almost diagonal matrix of the returned vectors |
| C107 | the loop of the driver over 20 calls of `vmult`, with the NaN and the infinity of the divisions | the entries in terms of the iterates; a solution stays a solution; residual norm and energy norm bound each other through the spectrum |
| C108 | the loop over the cells in `output`, the conversion to `float`, the cells in the file of each process | induction over the cells; conversion exact up to 2^24; with C12 and C14 the numbers 2^24 and 2^24 + 1 both occur |
| C109 | programs that change the problem, build and apply hierarchies in any order; the matrix-free operator and smoother use the present matrix, the rest is as built | induction over the history (at most the estimates change, once); the cycle as linear maps with two matrices; energy estimates for the coarse correction with an old matrix; an eigenvector in the coarse space for the negation |
| C110 | no new model: the cycles, smoothers, Lanczos solver and local eigenproblems already modelled | every operation of a cycle commutes with the projection onto an uncoupled set; a sweep sets the value of an unknown that is alone in its equation; invariant subspaces through the Lanczos recurrence and the deflation; a shifted diagonal matrix for the negation |
| C111 | `fastHelpers`: the helpers of C04 with the product of the `fast_ap` branch (C23) as `fast_multiply_transpose` | the identity of C23 with residuals; a coarse correction with a matrix of at least half the energy; the residuals bounded column by column; a five-dof problem scaled by the tolerance for the negation |
| C112 | `directSolver`, `directHelpers`: the helpers of C15 with a coarse solver that throws for singular matrices | the constructor's result as a function of the coarse solver's; kernel of the coarse matrix from that of the problem (semidefinite); the annihilated vector is in the coarse space by C80; energy decrease of sweeps without definiteness, coarse correction with a generalised inverse |
| C113 | the statements of C86 with a cost for each; `Hierarchy.gridComplexity`, `Hierarchy.operatorComplexity` | cost of a program by induction on the levels; names used by a level; geometric sum; entries of products of matrices counted by pairs of rows; eigenvectors and cells at a dof from C80's set-up |
| C114 | the two-level hierarchy of C04 with `relaxVmult`; the set-up of C80 | the cycle is `S P S` with `S` self-adjoint in the energy, so its norm is that of `P S` squared; nested projections; the rows of the larger set-up contain those of the smaller one; explicit 3x3 operators for the violations |
| C115 | the hierarchy of C04 and C75 with any function as coarse solver | the cycle with a nonlinear coarse solver by induction on the levels; orthogonality of the coarse correction; Cauchy-Schwarz without square roots; an explicit badly scaled 2x2 operator for the violation |
| C116 | the set-up of C80 for two problems that differ on a set of cells | the two set-ups make the same agglomerates; rows are paired with the cells of their agglomerates by induction on processes and agglomerates; the global matrix is a sum over cells |
| C117 | the row numbers of C21 and the conversions of C44 with integers of 32 and `w` bits (`Model/LargeSizes.lean`) | the loops commute with reduction modulo 2^32 and 2^w (induction); then C21 and C44; an overflow of `int` is undefined |
| C118 | the loops of the set-up that select cells, with counted steps (`Model/SetupWork.lean`) | closed forms of the counts by induction; C11 and C55 for the sizes of agglomerates; a sum of different cell numbers is at least that of the smallest |
| C119 | the cycle of C05 with any linear coarse solver inside the solver of C92 | the smoothers alone make the cycle positive definite; the cycle is monotone in the coarse solver, with C84 and C93 for the rate; violation by the two steps for two unknowns, in closed form |
| C120 | the hierarchies of C75 for matrices that are not symmetric | positivity passes through the triple product; the residual vanishes on the coarse space, which with the bound on the skewness gives quasi-optimality as for finite elements; the violation by following one component of the error, which the coarse correction does not change |
| C121 | the set-up of C80 and the hierarchies of C75 and C91 with other vectors that span the same spaces | rows are combinations of the rows of the other matrix, agglomerate by agglomerate; the coarse correction is determined by the coarse space; for signs and lengths all components are transported by diagonal matrices, solutions and right-hand sides with reciprocal ones; the violation by computing two cycles |
| C122 | the hierarchies of C75 and C88 for two problems that agree in a part | every component maps vectors that agree in the part to vectors that agree there: products, sweeps and factorisations by following the loops, the coarse solver by uniqueness; the violation by computing one cycle |
| C123 | sequences of standalone applications of the hierarchies of C75 and C78 | the error propagation of a cycle is symmetric and not negative in the energy product (by induction over the levels, C05 and C53), so the energy product of two errors depends on the sum of their numbers only; the rest is the Cauchy-Schwarz inequality |
| C124 | the three overloads of `matrix_market_output_file`, the writer as a parameter, deal.II's conversion entry by entry | case analysis on the return value; the conversion keeps an entry or replaces it by zero, by induction over the collected entries |
| C125 | sequences of standalone cycles as in C75, C78, C84 and C123 | the gain is the difference of the energies of the errors, summed by induction over the cycles; the rate of C84; self-adjointness of the error propagation and the Cauchy-Schwarz inequality |
| C126 | the assembly of the restriction matrix (C20) with orthonormal local eigenvectors | at every dof the prolonged vector is an average of the local combinations, weighted by C20; the square of an average is at most the average of the squares; the local combinations keep their length; on dofs of one agglomerate only the weight is one; induction over the levels |
| C127 | the conjugate gradient method of C92 | the residual of what is returned (C92, for Gauss-Seidel and Chebyshev smoothing), the Cauchy-Schwarz inequality and a lower bound of the quadratic form; the negation from the test before the first step |

## Where the code violates a property

All are stated as theorems; nothing is partial merely because a proof is missing.

| id | what the code does | theorem |
|----|--------------------|---------|
| C09 | the section "Apply: fine levels" is entered again while active when there are ≥ 3 levels; sections stay open when set-up throws | `C09_reentry_violated`, `C09_sections_leak_on_throw_violated` |
| C12 | with an unusual cell order an agglomerate can lose all its cells | `C12_bad_order` |
| C13 | a second block agglomeration of the same mesh returns 0 | `C13_block_rerun_violated` |
| C18 | the master record names only the last file | `C18_pvtu_record_violated` |
| C24 | an empty patch adds the previous patch's rows again | `C24_stale_violated` |
| C25 | with anasazi and an initial guess the result depends on the schedule | `C25_schedule_violated` |
| C31 | several deflation cycles: the list is cut before it is sorted; too few cycles: zero values and empty vectors | `C31_cut_violated`, `C31_padding_violated` |
| C33 | purging below the requested number leads to reads of empty arrays | `C33_purged_violated` |
| C37 | the device solver accepts any name at construction | `C37_cuda_solver_violated` |
| C41 | `MvAddMv` is wrong when the output is the second operand | `C41_add_violated` |
| C42 | more Anasazi pairs than requested are written past the end | `C42_extraction_violated` |
| C44 | one element past the end of the column array is read; a process without entries fails | `C44_square_violated`, `C44_empty_violated` |
| C46 | the second `transpose()` swaps the stored matrices | `C46_violated`, `C46_apply_transpose_violated` |
| C47 | `vmult` and move assignment leak; a product stored into its factor reads freed or uninitialised memory; copying, moving or assigning a default-constructed matrix reads uninitialised numbers of entries | `C47_vmult_violated`, `C47_assign_violated`, `C47_alias_violated`, `C47_default_violated` |
| C48 | the AMGX matrix object is never destroyed | `C48_violated` |
| C49 | processes whose rows do not start at 0 do not get their diagonal | `C49_violated` |
| C50 | the global count of nonzeros is the local one | `C50_violated` |
| C51 | for unsymmetric patterns lists are read out of bounds or paired with the wrong neighbour | `C51_violated`, `C51_partner_violated` |
| C56 | the user's ML parameters replace the defaults | `C56_defaults_violated` |
| C57 | release builds accept unknown eigensolver names | `C57_unknown_name_violated` |
| C58 | eigenvalues LAPACK did not find are read | `C58_lapack_violated` |
| C59 | eigenvalue lists are padded | `C59_aligned_violated` |
| C60 | random multivectors repeat and fill constrained dofs | `C60_fresh_violated`, `C60_constrained_violated` |
| C62 | AMGX overwrites the operator's matrix and permutes a const right-hand side | `C62_device_violated`, `C62_operator_violated` |
| C63 | the distributed `multiply_transpose` returns an operator that cannot be applied | `C63_violated` |
| C64 | the debug check reads past the end of its lists if an agglomerate has no eigenvectors | `C64_last_violated`, `C64_before_larger_violated` |
| C65 | with three or more levels the restrictors do not fit the levels | `C65_debug_violated`, `C65_apply_violated` |
| C65 | right-hand sides of the wrong size are not noticed | `C65_sizes_violated` |
| C66 | a matrix-free right operand is dereferenced as a null pointer | `C66_operand_violated` |
| C67 | no eigenvectors requested: 2^32 threads; more than there are dofs: reads past the end | `C67_none_violated`, `C67_many_violated` |
| C68 | two device allocations per agglomerate are never released | `C68_leaks_violated` |
| C69 | singular matrices are not reported in release builds; several processes read past the end | `C69_singular_violated`, `C69_shared_violated` |
| C69 | operators other than matrices on the device are not reported | `C69_operator_violated` |
| C70 | agglomerates with different numbers of eigenvectors: some rows of `A R^T` get no correction | `C70_uneven_violated` |
| C71 | the Jacobi smoother of a process without entries starts 2^32 threads with negative indices | `C71_empty_violated` |
| C72 | boundary id 0 cannot be told from the artificial boundary of a patch | `C72_zero_violated` |
| C73 | a process without entries of the product: failed assertion or empty vector read | `C73_empty_violated`, `C73_operand_violated` |
| C73 | an operand without a cuSPARSE handle: the product is never applied, silently in release builds | `C73_handle_violated` |
| C74 | more eigenvectors than unknowns: the coarse operator is singular, and the set-up does not report it | `C74_singular_violated` |
| C75 | on three or more processes a cycle can increase the error for every offered relaxation smoother | `C75_cycle_violated` |
| C75 | on two processes a Gauss-Seidel step need not decrease the energy | `C75_gauss_seidel_violated` |
| C78 | the eigenvalue estimate of the Chebyshev smoother can miss the largest eigenvalue, the cycle then diverges for every setting | `C78_cycle_violated` |
| C78 | the parameter `smoother.max_eigenvalue` has no effect | `C78_max_eigenvalue_violated` |
| C79 | a matrix-free evaluator whose diagonal is zero at constrained dofs, as documented, makes every restriction row there non-finite | `C79_constrained_violated` |
| C80 | a second set-up on the same mesh with the block partitioner gives a restriction matrix without entries | `C80_second_setup_violated` |
| C81 | a hierarchy with one level writes into the caller's tree; ML then gets one parameter and none of its defaults, now and in later hierarchies | `C81_kept_violated`, `C81_ml_violated`, `C81_history_violated` |
| C83 | a matrix-free hierarchy reads the `DoFHandler` at every application and a device hierarchy the CUDA handle, without keeping them alive or saying so | `C83_matrix_free_violated`, `C83_device_violated` |
| C86 | in preconditioner mode `vmult(x, x)` gives zero | `C86_in_place_violated` |
| C87 | two threads cannot apply one hierarchy with a direct solver, nor hierarchies with the same timer, at the same time, although `vmult` is const | `C87_direct_solver_violated`, `C87_timer_violated` |
| C88 | with incomplete factorisation a symmetric positive definite problem can diverge, on one process and with positive pivots | `C88_cycle_violated` |
| C89 | for small `c` the distributed product stores no entry | `C89_product_violated` |
| C89 | with constrained dofs, for large `c` every smallest eigenvector is zero on all free dofs | `C89_constrained_violated` |
| C89 | the LAPACK path reads past its eigenvector array for large `c` | `C89_lapack_violated` |
| C89 | for small `c` the Lanczos solver returns its normalised start vector as the only eigenvector | `C89_lanczos_guess_violated` |
| C89 | for small `c` the Lanczos solver reads past its array if two or more eigenvectors are asked for | `C89_lanczos_pairs_violated` |
| C90 | Gauss-Seidel smoothers give the same step as one row per process exactly if no process owns two coupled unknowns | `C90_processes_violated` |
| C90 | the same for the opposite order of rows in each process | `C90_order_violated` |
| C90 | incomplete factorisation: the same step only if no process owns two coupled unknowns | `C90_ilu_violated` |
| C90 | a cycle with default parameters differs between one and two processes | `C90_cycle_violated` |
| C91 | three or more levels on the device: abort in debug builds, undefined in release builds | `C91_levels_violated` |
| C91 | every application on the device leaves `8 s + 6` allocations behind | `C91_memory_violated` |
| C91 | other smoothers than Jacobi, `fast_ap` and the matrix-free device evaluator are rejected | `C91_smoother_violated`, `C91_fast_ap_violated`, `C91_matrix_free_violated` |
| C91 | an unknown direct solver is accepted by the set-up and rejected by every application | `C91_solver_violated` |
| C91 | a matrix without cuSPARSE handle or descriptor is not rejected: abort in debug builds, undefined in release builds | `C91_handle_violated` |
| C92 | a hierarchy with `is preconditioner = false` in the conjugate gradient method: the result depends on uninitialised memory, the solver can give up | `C92_standalone_violated` |
| C92 | no smoothing steps: the solver divides by zero for some systems | `C92_no_smoothing_violated` |
| C92 | Gauss-Seidel smoothing: the cycle is not symmetric, the solver gives up | `C92_gauss_seidel_violated` |
| C94 | one row on every process: every smoother is the division by the diagonal, and for the difference matrix no rate below one and no ratio of equivalence holds for all sizes, although one holds with two neighbouring rows on every process | `C94_one_row_violated` |
| C95 | release builds report nothing: one failed call and a direct solver returns the initial guess or the right-hand side as the solution, the eigensolver uninitialised memory | `C95_direct_silent_violated`, `C95_direct_violated`, `C95_eigen_violated` |
| C95 | release builds: a copy of a matrix for which there is no memory uses an indeterminate pointer | `C95_copy_violated` |
| C95 | debug builds too: a kernel that is not started is not noticed in products and in the smoother (uninitialised memory is used), a failed solve of AMGX is not noticed at all | `C95_vmult_violated`, `C95_smoother_violated`, `C95_amgx_violated` |
| C96 | hierarchy_driver sets eigensolver, tolerances, `fast_ap` and the matrix-free smoother itself, whatever the file says; an entry `hidden` in `hidden` is undefined; the default of `is preconditioner` does not apply | `C96_parameters_violated`, `C96_hidden_violated`, `C96_default_violated` |
| C96 | release builds: `--dim 4` runs in three dimensions; an unsupported degree ends with exit code zero without solving anything | `C96_problem_violated` |
| C97 | two threads that apply a device operator transposed, or a device hierarchy, for the first time have a data race although the functions are `const`; the operator may become its transpose | `C97_race_violated`, `C97_swapped_violated`, `C97_early_violated` |
| C98 | a tolerance of the eigensolver that does not depend on the smallest eigenvalue (the code never asks Lanczos for less than 1e-4) does not give a rate of convergence: the rate tends to one as the eigenvalue tends to zero | `C98_tolerance_violated` |
| C99 | an exception during the set-up on the device leaves arrays and descriptors in use, more with each attempt | `C99_setup_violated`, `C99_unbounded_violated` |
| C99 | an exception in the constructor of the smoother leaves its arrays in use, in that of the AMGX solver the library and its handles, in the product with a vector the gathered vector | `C99_smoother_violated`, `C99_solver_violated`, `C99_vmult_violated` |
| C99 | if an index set cannot be copied in the move assignment of a device matrix, which the product on several processes uses, two objects own the same arrays and they are released twice | `C99_multiply_violated` |
| C99 | with `fast_ap` an exception after the raw pointer `ap` was filled loses the matrix | `C99_fast_ap_violated` |
| C100 | from a start vector without a component in the smallest eigenvector the Lanczos solver returns larger eigenvalues without notice | `C100_missed_violated` |
| C100 | for every tolerance there are start vectors with a component in the smallest eigenvector from which the Lanczos solver stops after one iteration near another eigenvalue | `C100_early_stop_violated` |
| C101 | for every sequence of random numbers and at least two dofs there is a symmetric positive definite matrix with smallest eigenvalue 1 for which every call returns 2 as converged | `C101_missed_violated` |
| C102 | more pairs requested than the start vector can give, or its last step not tested (size 21 with the default 5 per cent): the solver divides by zero | `C102_more_pairs_violated`, `C102_untested_violated`, `C102_library_violated` |
| C103 | a multiple eigenvalue among the requested ones: only one of its eigenvectors is found, the next value is too large, and requesting more eigenvectors than distinct eigenvalues never returns | `C103_multiple_violated`, `C103_orthogonal_violated`, `C103_distinct_violated` |
| C104 | every destructor of an AMGX solver finalises the library: other AMGX solvers that exist can neither be applied nor destroyed | `C104_two_solvers_violated`, `C104_kept_solver_violated` |
| C105 | the patterns are gathered over `MPI_COMM_WORLD` but read by the ranks of the matrix's communicator: wrong lists on every other communicator of two or more processes | `C105_other_communicators_violated` |
| C106 | more eigenvectors per cycle than distinct eigenvalues, or more eigenvectors in all cycles than dofs: no call returns | `C106_many_per_cycle_violated`, `C106_many_cycles_violated` |
| C107 | the printed rate is NaN when the system is solved before the last cycle, always for one level with an exact solver; it can exceed 1 although every cycle reduces the energy of the error to a fifth | `C107_solved_violated`, `C107_one_level_violated`, `C107_above_one_violated` |
| C108 | more than 2^24 agglomerates on a process: two of them carry the same number in the output | `C108_block_violated`, `C108_partitioner_violated` |
| C109 | a matrix-free hierarchy changes its answers when the problem changes, and does not solve the new problem in general | `C109_matrix_free_violated`, `C109_scaled_violated` |
| C110 | without smoothing steps a coarse correction can destroy a prescribed value; Chebyshev smoothing of the default degree does not set it | `C110_unsmoothed_violated`, `C110_chebyshev_violated` |
| C111 | `fast_ap` with eigenpairs within any given tolerance can diverge where the exact product converges at once | `C111_tolerance_violated` |
| C112 | without boundary conditions the coarse matrix is singular and the constructor fails in its factorisation | `C112_neumann_violated` |
| C113 | the complexities reported by the hierarchy are always 0 | `C113_reported_violated` |
| C114 | with Gauss-Seidel more coarse vectors can make the method slower | `C114_gaussSeidel_violated` |
| C114 | a single cycle can leave a larger error with more coarse vectors | `C114_single_violated` |
| C115 | a small residual of the coarse problem does not bound the error of the cycle | `C115_residual_violated` |
| C116 | with anasazi and use_initial_guess a change on one agglomerate changes the rows of the next one | `C116_guess_violated` |
| C117 | rows beyond the range of the index type: two processes get the same number, the number of rows is wrong | `C117_rows_violated`, `C117_count_violated` |
| C117 | device matrices with 2^31 entries or columns or more: undefined or negative numbers | `C117_entries_violated`, `C117_columns_violated` |
| C118 | finding the patches takes a number of steps that is quadratic in the number of cells | `C118_scan_violated`, `C118_block_violated`, `C118_advance_violated`, `C118_debug_violated` |
| C119 | conjugate gradients with a coarse solver that is not symmetric give up for some right-hand side | `C119_cycle_violated`, `C119_forward_violated` |
| C120 | for a positive matrix that is far from symmetric the cycles diverge | `C120_violated` |
| C121 | with three levels the result depends on the basis of the vectors of the middle level | `C121_levels_violated` |
| C122 | an eigenvector that extends over two separate parts couples them | `C122_mixed_violated` |
| C123 | with Gauss-Seidel smoothing the errors change direction, and rates improve | `C123_gauss_seidel_violated` |
| C124 | a failed write is not reported in release builds | `C124_release_violated` |
| C124 | deal.II matrices lose their small entries: every matrix, in large enough units, is written as zero | `C124_small_violated` |
| C125 | with Gauss-Seidel smoothing in one direction two corrections do not bound the error from below | `C125_corrections_violated` |
| C125 | a small correction does not mean a small error, whatever the factor | `C125_upper_violated` |
| C126 | the condition number of the coarse matrix is not bounded, already for the identity and two agglomerates | `C126_below_violated` |
| C127 | the tolerance of the driver is absolute: every start vector is returned in small enough units | `C127_units_violated` |
| C76 | an exception in the eigenproblems of some members only; a matrix-free hierarchy with `lapack`/`arpack` and a member without agglomerates; AMGX on a part of the world | `C76_exception_violated`, `C76_no_agglomerates_violated`, `C76_amgx_violated` |

## Trusted base

* **Kernel and axioms.** Lean 4.33.0's kernel. The theorems depend on no axioms other than `propext`,
  `Classical.choice` and `Quot.sound` (those over `ℝ` on all three; some of the list-only ones on
  fewer). No `sorry`, no own axioms, no `native_decide`, no `bv_decide`. `decide +kernel` is used for
  examples and for closed witnesses only.
* **The reading of the C++ code** by which the model was written: the code is not compiled or run.
* **Specifications** in `Verif/Spec`, and the statements in `Verif/Props`.
* **External libraries**, assumed as follows.

| module | assumed |
|--------|---------|
| Hierarchy | `vmult`/`Tvmult` overwrite the destination; operator products are exact where C06 says so; smoothers and coarse solver are functions of (rhs, guess) |
| Agglomerate | a deal.II mesh is its list of active cells, its neighbour relation, vertex neighbours, ownership and user indices; Zoltan/METIS return one part number per owned cell; `tolower` in the "C" locale |
| Restriction | `MPI_Allgather` returns the counts by rank; `SparseMatrix::add`/`set` before `compress` accumulate as deal.II documents |
| FastAP | the user's evaluator is faithful: the matrix on a patch is the sum of the contributions of its cells (`PatchEval.Faithful`); local eigenpairs exact |
| SetupAll | the evaluator and the eigensolver give, on every patch, dofs and diagonal of the sum of the cell matrices (`ProcFem.Faithful`), for the coarse space also correct eigenvectors (`SolvedExactly`); mesh order as in Agglomerate (`Share.Sound`) |
| WorkStream | deal.II's documented semantics: worker once per item, copier in item order, objects not shared between concurrent calls |
| Lanczos | LAPACK `dstev` returns a sorted orthonormal eigenbasis (`DstevContract`); division by a zero norm is `ub` |
| LocalEig | eigensolvers return eigenpairs of the matrix they are given (`EigenContract`); the random numbers are an arbitrary function |
| MatMult | the operator is multiplication by a matrix (`IsMatrix`) |
| Permute, Amgx | `std::sort` with a strict weak order returns a sorted permutation (`SortContract`) |
| Params | the fragment of XML that the code generates is read as by Teuchos' reader: attribute values end at the next quote |
| ParamTree | Boost's documented `get_child_optional`, `get` with default and `put`: the first child with a key, `.` separates keys, missing nodes are appended; `bool` is written as `true`/`false`; the conversions from text are parameters |
| Rounded | every operation of `double` has a relative error of at most u (no overflow, underflow, NaN); sparse products add the entries in stored order; the matrices stored on the levels and the error of the coarse solver are given |
| Lifetime | members are destroyed in the order C++ prescribes; preconditioners and solvers of deal.II refer to their matrix and are destroyed without touching it; `PreconditionChebyshev` subscribes to its operator; a destroyed `Subscriptor` with subscribers aborts in debug mode only; the user's `evaluate_global` gives the matrix the handle of the evaluator; an evaluator reads its `DoFHandler` and some of the other objects it refers to |
| Vectors in memory | copies, products, preconditioners and solvers read and write only their arguments, except that `TrilinosWrappers::SolverDirect::solve` stores pointers to its arguments in its `Epetra_LinearProblem`; a statement of one thread is executed as a whole (without a data race this cannot be observed); local vectors have addresses of their own; `PreconditionChebyshev` protects its temporary vectors by a mutex; Epetra matrices are not distributed (their import buffers are shared) |
| Incomplete factorisation | `PreconditionILU` with its default data (fill 0, absolute threshold 0, relative threshold 1, overlap 0): row-wise elimination has the same factors as the column-wise elimination of the model; zero pivots are excluded or proved absent |
| Change of units | `C89_lanczos_partial`: `dstev` of `c T` returns `c` times the eigenvalues and the same vectors (`DstevScales`); `C89_chebyshev_partial`: the eigenvalue estimate, which is one of the diagonally scaled operator, is the same in both units |
| Renumbering | `C90_chebyshev_partial`: the eigenvalue estimate is the same for both numberings; the code computes it from a start vector built from the numbering |
| Device libraries | C91, structure `DeviceLib.Correct`: cuSPARSE's product, EpetraExt's transpose and cuSOLVER's solvers are exact; `Device.Valid`: every kernel launch runs all its threads, in any order; one process |
| Conjugate gradients | C92: deal.II's `SolverCG` and `SolverControl` follow their documentation; exact arithmetic; a division by zero is an exception (debug) or ends in `NoConvergence` (release) |
| Failing calls | a failed call of a library leaves of its output what `left` gives (any function) and does not touch other arrays; a kernel that fails makes all later calls fail; `cudaGetLastError` knows the errors of CUDA calls and kernels but not those of AMGX; operations of deal.II vectors do not fail |
| Driver | `boost::program_options` and the reader of INFO files give options and tree (any); `put` writes `0.001` and `1e-06` for the numbers the program sets (the text only matters for later reading) |
| Threads | sequentially consistent steps, one per access; calls of cuSPARSE with the same handle by several threads are safe; reference counts are atomic |
| Exceptions | host allocations, copies of index sets, the user's evaluator, deal.II set-up functions and parameter look-ups can throw; CUDA, cuSPARSE and cuSOLVER calls cannot (they return codes, C95); AMGX calls do not throw |
| Random numbers of the start vector | the draws of `std::uniform_real_distribution` in [0, 1) are a parameter; C101 assumes that none of them is exactly 0 |
| DeviceCsr, DeviceGather | a successful `cudaMemcpy` copies exactly; `MPI_Allgatherv` concatenates by rank; `cusparseDcsrmv` computes the product of the CSR arrays |
| DeviceOperator | cuSPARSE with a null handle reports an error and writes nothing; EpetraExt products are exact |
| DeviceMemory, AmgxHandles | allocations and creations succeed; addresses are not reused while tracked |
| HostOperator | deal.II/EpetraExt products and transposes are exact; dimension errors are returned as codes |
| DeviceEigen, DeviceSetup | cusolver `sygvd` returns all eigenpairs in increasing order (`SygvdContract`) |
| DirectSolver | `CuSolver.Correct`: factorisations solve exactly and report singularity; `cusparseDcsr2dense` is exact |
| PatchBoundary | `build_triangulation_from_patch` copies the cells with their face numbering (`PatchMesh.Copies`); boundary ids of a new triangulation are 0 |
| Relaxation | Trilinos' `PreconditionSSOR`/`SOR`/`Jacobi` with default data are one textbook sweep from zero on the rows of each process; the direct coarse solver solves exactly (`SolvesExactly`) |
| Chebyshev | `PreconditionChebyshev` as documented by deal.II since version 9.1: the given largest eigenvalue is used only if no iterations are made to estimate it (default 8), the interval ends at 1.2 times the largest estimate, a degree below 2 is damped Jacobi; the estimates are Ritz values of a Krylov space (`RitzContract`); exact arithmetic, positive diagonal |
| Diagonal | assigning a vector without ghosts to one with ghosts imports them from their owners; reading an element that is not stored is checked in debug builds only; IEEE division by zero gives no finite number (infinity and NaN are one value of the model) |
| Collective | which deal.II, Trilinos and user functions are collective over the communicator of their object (constructors, `reinit`, `compress`, products, norms, `apply`); `evaluate_global` and `get_diagonal` of the user are collective; local calls do not communicate |
| AmgxComm | the matrix's communicator is `MPI_COMM_WORLD` |
| AmgxLibrary | no call of AMGX may follow `AMGX_finalize` until the next `AMGX_initialize`, and objects do not survive it (its documentation); repeated initialisation is allowed; the objects of a solver are treated as one |
| AmgxSubComm | all processes of the world construct a solver (else line 298 does not return); the bound of the `IndexSet` is not checked |
| DriverCycles | numbers are real except for the NaN and the infinity of divisions by zero; `l2_norm` and the products are exact |
| OutputFile | `build_patches` and `write_vtu` write the locally owned cells with the entries of the data vectors at their active cell index (deal.II); the conversion to `float` rounds to nearest, ties to even |
| ProblemChange | the evaluator evaluates the same matrix until the user changes it; `PreconditionChebyshev` keeps a reference to the operator, estimates the eigenvalues in its first `vmult` and keeps the estimates (deal.II) |
| Direct | `SolverDirect::initialize` throws exactly for singular matrices (Amesos reports a zero pivot; rounding may hide it) |
| Files | the writers of EpetraExt return zero only if the file can be read back as the matrix or vector (rounding of printed digits is not modelled); `TrilinosWrappers::SparseMatrix::reinit(dealii::SparseMatrix)` has the default drop tolerance 1e-13, keeps the pattern and copies the values whose absolute value exceeds the tolerance (deal.II's source is not available here: stated from its documented interface and not checked against the pinned version) |

* **Not modelled:** floating-point rounding outside C82 (no overflow or underflow; non-finite numbers only in C79), MPI failures, memory exhaustion, overflow of
  32-bit counters (except in C71, C117 and where stated), the contents of deal.II, Trilinos, Anasazi, LAPACK, ARPACK,
  UMFPACK, ML, Zoltan, METIS, cuSPARSE, cuSOLVER, AMGX.

### Source files

| file | modelled | not modelled |
|------|----------|--------------|
| common/hierarchy.hpp | timer helpers, factories, constructor, `vmult`, `apply`, `grid_complexity`, `operator_complexity` | – |
| common/level.hpp, operator.hpp, smoother.hpp, solver.hpp, hierarchy_helpers.hpp | the interfaces | – |
| common/amge.templates.hpp | everything, including the boundary ids of patch meshes, and the data of `output`, except the VTU writer and the copying of geometry | the encoding of the VTU files; vertex coordinates |
| common/lanczos*.hpp | everything except random number generation | printing |
| common/utils.hpp, source/common/utils.cc | everything | – |
| common/exceptions.hpp | `ASSERT`, `ASSERT_THROW`, `ASSERT_THROW_NOT_IMPLEMENTED` | message texts |
| dealii/amge_host.* | eigensolver dispatch, shift, guesses, worker/copier, set-up | ARPACK and UMFPACK internals |
| dealii/anasazi*.hpp, multivector.hpp | extraction, `MultiVecTraits` operations, guesses | `MvPrint`, the Anasazi solver itself |
| dealii/belos_traits.hpp | – | all (every function throws `NotImplementedExc`) |
| dealii_hierarchy_helpers.cc, dealii_matrix_free_hierarchy_helpers.cc | restrictor, fast_ap, factories | – |
| dealii_smoother.cc, dealii_matrix_free_smoother.cc, dealii_solver.cc | name dispatch, ML parameters, SSOR/SOR/Jacobi relaxation, incomplete factorisation, Chebyshev preconditioner | ML |
| dealii_utils.* | `extract_row`, `matrix_transpose_matrix_multiply`, `matrix_market_output_file` | the file format |
| dealii_trilinos_matrix_operator.cc, dealii_matrix_operator.cc, dealii_matrix_free_operator.cc | apply, transpose, products | complexities |
| dealii_*mesh_evaluator.* | initial guess, types, `get_diagonal` | – |
| cuda/utils.cu | conversions, AMGX renumbering, gathering | – |
| cuda/sparse_matrix_device.* | construction, moves, `vmult`, `mmult`, counters | – |
| cuda/cuda_matrix_operator.cu | apply, transpose, products | complexities |
| cuda/cuda_smoother.cu | all | – |
| cuda/cuda_solver.cu | AMGX set-up, solve, destruction, dispatch | AMGX internals |
| cuda/dealii_operator_device_helpers.cu | direct solvers, iota kernel | cuSOLVER internals |
| cuda/amge_device.templates.cuh | eigenvector computation, restrictor set-up | cuSOLVER internals |
| cuda/cuda_matrix_free_operator.cu | `multiply_transpose` | operations that always throw |
| cuda/cuda_matrix_free_mesh_evaluator.cu, cuda_mesh_evaluator.cu | – | wrappers of the user's evaluator |
| tests/hierarchy_driver.cc | options, parameter tree, choice of the problem, entries read, the solve with `SolverCG` at the end, the 20 standalone cycles and the rate | mesh and matrix set-up, the formatting of the output |
| instantiation files, `*.cc`/`*.cu` that only instantiate | – | no behaviour |

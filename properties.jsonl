{"id": "C01", "title": "Preconditioner result ignores the previous content of the output vector", "statement": "With 'is preconditioner' = true (the default), Hierarchy::vmult(x, b) leaves in x a value that depends only on b, whatever x contained before the call and whatever the freshly allocated work vectors contained, for any number of levels. With 'is preconditioner' = false the incoming x is used as the initial guess on the finest level only.", "quantifier": "all hierarchies (any number of levels, any operators, smoothers, coarse solvers), all b, all prior x, all work-vector contents", "why_tests_cant": "A Krylov solver hands in arbitrary scratch vectors; tests use zero-initialised ones.", "anchors": ["include/mfmg/common/hierarchy.hpp: Hierarchy::vmult, Hierarchy::apply", "include/mfmg/common/level.hpp: Level::build_vector"]}
{"id": "C02", "title": "The multigrid cycle is linear in the right-hand side", "statement": "In preconditioner mode, if every smoother step is x <- x - B(Ax - b) with linear B and the coarse solver is linear in b (for the zero initial guess), then b -> vmult(b) is a linear map: vmult(b1 + c*b2) = vmult(b1) + c*vmult(b2).", "quantifier": "all depths, all numbers of smoothing steps, all linear operators, all scalars and right-hand sides", "why_tests_cant": "Linearity over all vectors and all depths is an infinite claim; CG/GMRES correctness depends on it.", "anchors": ["include/mfmg/common/hierarchy.hpp: Hierarchy::apply", "source/dealii/dealii_smoother.cc: DealIISmoother::apply"]}
{"id": "C03", "title": "An exact solution is a fixed point of a standalone cycle", "statement": "In standalone mode ('is preconditioner' = false), if A x = b then one call of vmult leaves x unchanged, provided the coarsest solver maps a zero right-hand side (from a zero guess) to zero; with a single level, provided the solver returns a solution it was started from.", "quantifier": "all depths, all smoothing counts, all operators and smoothers of the form x - B(Ax-b) (B(0)=0), all b, x", "why_tests_cant": "Needs all depths and all operators; a test samples one Laplace problem up to tolerance.", "anchors": ["include/mfmg/common/hierarchy.hpp: Hierarchy::apply", "source/dealii/dealii_smoother.cc: DealIISmoother::apply", "source/dealii/dealii_matrix_free_smoother.cc: apply"]}
{"id": "C04", "title": "Standalone cycle = preconditioned Richardson step", "statement": "One standalone cycle started from x equals x + M(b - A x), where M is the map computed by the same hierarchy in preconditioner mode (number of levels >= 2). Hence the iteration error obeys e_new = (I - M A) e, and the two-level error operator is S^n (I - R^T Ac^-1 R A) S^n.", "quantifier": "all depths >= 2, all smoothing counts, all x, b", "why_tests_cant": "An algebraic identity over all vectors and depths.", "anchors": ["include/mfmg/common/hierarchy.hpp: Hierarchy::apply (sign convention -r = Ax-b)"]}
{"id": "C05", "title": "The V-cycle preconditioner is symmetric", "statement": "If the operator of every level is symmetric, every smoother's B is symmetric and the coarse solve is symmetric, then the map b -> vmult(b) in preconditioner mode is symmetric: <M b, c> = <b, M c>. (Pre- and post-smoothing counts are equal, restriction and prolongation are transposes.) CG relies on it.", "quantifier": "all depths, all smoothing counts, all vectors", "why_tests_cant": "Symmetry for all pairs of vectors cannot be tested; asymmetry makes CG silently diverge.", "anchors": ["include/mfmg/common/hierarchy.hpp: Hierarchy::apply", "source/dealii/dealii_trilinos_matrix_operator.cc: apply (TRANS)"]}
{"id": "C06", "title": "Galerkin coarse operators", "statement": "After construction the operator of level l+1 is R A_l R^T with R the restrictor stored on level l+1; symmetry and positive semi-definiteness of A_0 are inherited by every level's operator.", "quantifier": "all numbers of levels, all restrictors and operators", "why_tests_cant": "Inherited properties hold for all vectors and levels.", "anchors": ["include/mfmg/common/hierarchy.hpp: Hierarchy::Hierarchy", "source/dealii/dealii_trilinos_matrix_operator.cc: multiply, multiply_transpose"]}
{"id": "C07", "title": "The coarse correction is the energy-optimal one", "statement": "With an exact coarse solve on the Galerkin operator, the coarse correction step leaves a residual r with R r = 0, and, for symmetric positive semi-definite A, minimises the energy norm of the error over all corrections in the range of R^T.", "quantifier": "all symmetric A, all R, all b and x", "why_tests_cant": "An optimality statement over all corrections.", "anchors": ["include/mfmg/common/hierarchy.hpp: Hierarchy::apply (residual, restriction, correction)"]}
{"id": "C08", "title": "Every level is completely and uniquely populated", "statement": "For 'max levels' = L >= 1 the constructed hierarchy has exactly L levels, every level has an operator, levels 0..L-2 have a smoother and no solver, levels 1..L-1 a restrictor, and only level L-1 has a coarse solver; hence apply never dereferences an unset component. For L = 0 the release build has undefined behaviour (the check is a debug-only ASSERT), for L < 0 it throws.", "quantifier": "all values of 'max levels' (any integer), both build modes", "why_tests_cant": "Tests use 1 to 3 levels; the all-L statement and the UB boundary need reasoning.", "anchors": ["include/mfmg/common/hierarchy.hpp: Hierarchy::Hierarchy", "include/mfmg/common/exceptions.hpp: ASSERT"]}
{"id": "C09", "title": "Timer sections are balanced and never re-entered while active", "statement": "Constructing a hierarchy and applying it leaves the user's timer with the same active sections as before, and no section is entered while already active. True for 1 and 2 levels when nothing throws; false for 3 or more levels ('Apply: fine levels' is re-entered recursively) and when a setup step throws (the active sections are never left).", "quantifier": "all numbers of levels, all points at which a set-up step may throw", "why_tests_cant": "Depends on recursion depth and on every exception point.", "anchors": ["include/mfmg/common/hierarchy.hpp: timer_enter_subsection, timer_leave_subsection, Hierarchy::Hierarchy, vmult, apply"]}
{"id": "C10", "title": "Numeric parameters are honoured", "statement": "Defaults are 2 levels, 1 smoothing step, preconditioner mode. A non-negative 'smoother.n_smoothing_steps' = n performs exactly n pre- and n post-smoothing steps per fine level and application; a negative value is converted to 2^32 - |n| steps instead of being rejected. Only for a single-level hierarchy is the user's parameter tree modified ('coarse.params.zero starting solution').", "quantifier": "all parameter trees, all integers", "why_tests_cant": "Ranges over every integer including negative ones.", "anchors": ["include/mfmg/common/hierarchy.hpp: Hierarchy::Hierarchy, Hierarchy::apply"]}
{"id": "C11", "title": "Block agglomeration assigns every owned cell to exactly one agglomerate", "statement": "After the block partitioner ran on an unflagged mesh, every locally owned cell has an agglomerate id between 1 and the returned count, cells that are not locally owned are untouched, whatever the mesh topology (neighbour relation), block dimensions >= 1 and iteration order.", "quantifier": "all meshes (arbitrary finite cell lists and neighbour functions), all block sizes, dim 2 and 3", "why_tests_cant": "All mesh topologies and ownership patterns.", "anchors": ["include/mfmg/common/amge.templates.hpp: AMGe::build_agglomerates_block"]}
{"id": "C12", "title": "No agglomerate created by the block partitioner is empty", "statement": "The returned number of agglomerates equals the number of distinct ids present on cells. This holds when the cell iteration visits a cell before the cells reached from it in the +x/+y/+z directions; otherwise a later agglomerate can overwrite all cells of an earlier one and an id is left without cells.", "quantifier": "all meshes and iteration orders", "why_tests_cant": "Existence of a bad order is invisible on the structured meshes used in tests.", "anchors": ["include/mfmg/common/amge.templates.hpp: AMGe::build_agglomerates_block"]}
{"id": "C13", "title": "Re-running the agglomeration", "statement": "build_agglomerates can be called again on a mesh (as a hierarchy with three or more levels does) and reports the agglomerates carried by the mesh. False for the block partitioner: cells already flagged are skipped, so the second call returns 0 while the flags stay.", "quantifier": "all meshes, all block sizes", "why_tests_cant": "A history property (two calls on the same state).", "anchors": ["include/mfmg/common/amge.templates.hpp: AMGe::build_agglomerates_block", "include/mfmg/common/hierarchy.hpp: Hierarchy::Hierarchy (build_restrictor in the level loop)"]}
{"id": "C14", "title": "Graph-partitioner agglomerates are numbered consecutively", "statement": "With a zoltan/metis partition, the owned cells receive ids that are exactly 1..n with n the returned count and n the number of distinct parts used by owned cells; two owned cells share an id iff the partitioner put them in the same part.", "quantifier": "all partition vectors and ownership patterns", "why_tests_cant": "All partitions, including ones with empty parts.", "anchors": ["include/mfmg/common/amge.templates.hpp: AMGe::build_agglomerates_partitioner"]}
{"id": "C15", "title": "Boundary and halo agglomerates are exact", "statement": "For every agglomerate the interior list contains exactly its cells that have a vertex-neighbour outside it, the halo list exactly the outside cells that neighbour it, both strictly increasing in active cell index and disjoint from each other.", "quantifier": "all meshes, connectivity graphs and agglomerate flags in 1..n", "why_tests_cant": "All graphs and all agglomerations.", "anchors": ["include/mfmg/common/amge.templates.hpp: AMGe::build_boundary_agglomerates"]}
{"id": "C16", "title": "A patch mesh is built from exactly the requested cells", "statement": "build_agglomerate_triangulation for a list of active cell indices selects exactly the cells with those indices, in order, when the list is increasing and in range; an unordered or out-of-range list advances an iterator outside the mesh (undefined behaviour).", "quantifier": "all meshes and index lists", "why_tests_cant": "Telescoping iterator arithmetic over every list.", "anchors": ["include/mfmg/common/amge.templates.hpp: AMGe::build_agglomerate_triangulation(cell_index)"]}
{"id": "C17", "title": "Local to global dof map is complete and consistent", "statement": "compute_dof_index_map returns for each agglomerate dof the global dof occupying the same position on the same cell: every dof that occurs on a patch cell is mapped, and if patch and global numbering agree on shared dofs the result does not depend on the order in which cells are visited.", "quantifier": "all patches, all dof numberings, all visiting orders", "why_tests_cant": "Order independence over all permutations of cells.", "anchors": ["include/mfmg/common/amge.templates.hpp: AMGe::compute_dof_index_map"]}
{"id": "C18", "title": "Parallel agglomerate output lists every process' file", "statement": "The master record written by AMGe::output names one file for each process. False for two or more processes: the loop always writes entry 0, so the record names only the last file and empty strings.", "quantifier": "all numbers of processes", "why_tests_cant": "Tests inspect single-process output only.", "anchors": ["include/mfmg/common/amge.templates.hpp: AMGe::output"]}
{"id": "C19", "title": "Agglomeration strategy dispatch", "statement": "build_agglomerates accepts zoltan, metis and block in any letter case, runs exactly the corresponding algorithm and throws a runtime_error, without flagging any cell, for every other name.", "quantifier": "all strings", "why_tests_cant": "All spellings.", "anchors": ["include/mfmg/common/amge.templates.hpp: AMGe::build_agglomerates"]}
{"id": "C20", "title": "Restriction weights form a partition of unity", "statement": "Row k of the restriction matrix is the k-th local eigenvector multiplied entrywise by (agglomerate diagonal / global diagonal). If the agglomerate diagonals sum to the (nonzero) global diagonal, the weights of each dof sum to 1 over the agglomerates, so local vectors that agree on shared dofs are reproduced exactly by summing the restriction rows (constants are preserved).", "quantifier": "all numbers of agglomerates, dof maps, eigenvectors, diagonals", "why_tests_cant": "All overlapping agglomerate configurations.", "anchors": ["include/mfmg/common/amge.templates.hpp: AMGe::compute_restriction_sparse_matrix", "include/mfmg/common/utils.hpp: check_restriction_matrix"]}
{"id": "C21", "title": "Rows of the restriction matrix are distributed disjointly", "statement": "The row ranges computed from the all-gathered local counts are pairwise disjoint, ordered by rank and cover exactly [0, total); every eigenvector on every process writes its own row, and no two eigenvectors share a row.", "quantifier": "all numbers of processes and local eigenvector counts", "why_tests_cant": "All process counts and distributions, including empty ranks.", "anchors": ["include/mfmg/common/amge.templates.hpp: AMGe::compute_restriction_sparsity_pattern, compute_restriction_sparse_matrix"]}
{"id": "C22", "title": "Restriction = eigenvectors + correction", "statement": "With fast_ap the three matrices filled together satisfy restriction = eigenvector matrix + delta matrix entry by entry, and delta vanishes at dofs that belong to a single agglomerate.", "quantifier": "all inputs with nonzero global diagonal", "why_tests_cant": "All configurations.", "anchors": ["include/mfmg/common/amge.templates.hpp: AMGe::compute_restriction_sparse_matrix (second overload)"]}
{"id": "C23", "title": "fast_ap computes A R^T", "statement": "With fast_ap = true the matrix built from eigenpairs, interior and halo agglomerates equals A R^T computed directly, if the global operator is the sum of cell contributions, the local eigenpairs are exact and every patch contributes; so the hierarchy is the same as with fast_ap = false.", "quantifier": "all meshes, all cell matrices, all agglomerations", "why_tests_cant": "Equality of two algorithms over all meshes.", "anchors": ["source/dealii/dealii_hierarchy_helpers.cc: build_restrictor, fast_multiply_transpose", "source/dealii/dealii_matrix_free_hierarchy_helpers.cc", "include/mfmg/common/amge.templates.hpp: build_boundary_agglomerates"]}
{"id": "C24", "title": "fast_ap contributions are added once per patch", "statement": "In the parallel assembly of the fast_ap correction each patch contributes exactly its own rows. False when an empty patch is processed with a re-used copy object: the worker returns without clearing it and the previous patch's rows are added again.", "quantifier": "all sequences of patches, all re-use schedules of copy objects", "why_tests_cant": "Depends on the scheduler's re-use of copy objects.", "anchors": ["source/dealii/dealii_hierarchy_helpers.cc: build_restrictor (worker, copier)"]}
{"id": "C25", "title": "Restrictor set-up does not depend on the thread schedule", "statement": "setup_restrictor produces the same eigenvectors, diagonals and maps, in agglomerate order, whatever threads process the agglomerates in whatever order. False with eigensolver type anasazi and 'use initial guess', where the guess left in a thread's scratch object by the previously processed agglomerate is used.", "quantifier": "all schedules (assignments of agglomerates to threads and interleavings)", "why_tests_cant": "Schedules cannot be enumerated by tests.", "anchors": ["include/mfmg/dealii/amge_host.templates.hpp: setup_restrictor, local_worker, copy_local_to_global"]}
{"id": "C26", "title": "Lanczos vectors are orthonormal and satisfy the three-term relation", "statement": "In exact arithmetic, for a symmetric operator and as long as no breakdown occurs, the vectors generated are orthonormal and A V = V T + beta v e^T with the tridiagonal T made from the stored coefficients.", "quantifier": "all dimensions, symmetric operators, start vectors, iteration counts", "why_tests_cant": "An invariant over all iteration counts.", "anchors": ["include/mfmg/common/lanczos.templates.hpp: Lanczos::details_solve_lanczos"]}
{"id": "C27", "title": "The convergence test bounds the true residual", "statement": "If (theta, s) is an eigenpair of T, the returned vector V s satisfies ||A V s - theta V s|| = |beta| |s_last|, the quantity the code tests; when the test passes every requested pair has residual at most the tolerance used.", "quantifier": "all symmetric operators, iteration counts, requested pairs", "why_tests_cant": "Relates a scalar test to a vector residual for all operators.", "anchors": ["include/mfmg/common/lanczos.templates.hpp: details_check_convergence, details_calc_evecs"]}
{"id": "C28", "title": "Deflation removes the converged directions", "statement": "Vectors passed to add_deflation_vecs are turned into an orthonormal family spanning the same space as all vectors added so far (if linearly independent); deflate and vmult return vectors orthogonal to all of them, leave orthogonal vectors unchanged, and deflation is idempotent.", "quantifier": "all sequences of add_deflation_vecs calls, all vectors", "why_tests_cant": "History property over all sequences of additions.", "anchors": ["include/mfmg/common/lanczos_deflatedop.templates.hpp: add_deflation_vecs, deflate, vmult"]}
{"id": "C29", "title": "Spurious eigenvalue detection is exact", "statement": "The two-pointer scan marks an eigenvalue of T as spurious iff it is not a repeated one and lies within tolerance of some eigenvalue of the trailing submatrix, i.e. it agrees with comparing all pairs, for sorted inputs.", "quantifier": "all sorted lists and tolerances", "why_tests_cant": "The scan's correctness over all interleavings of the two lists.", "anchors": ["include/mfmg/common/lanczos.templates.hpp: details_calc_tridiag_epairs"]}
{"id": "C30", "title": "Tridiagonal step returns all or nothing, in order", "statement": "details_calc_tridiag_epairs returns either no pairs or exactly the requested number, being the smallest non-purged eigenvalues in increasing order, each with its own (normalised) eigenvector.", "quantifier": "all tridiagonal spectra, requested counts, purge patterns", "why_tests_cant": "All purge patterns.", "anchors": ["include/mfmg/common/lanczos.templates.hpp: details_calc_tridiag_epairs"]}
{"id": "C31", "title": "Lanczos returns the requested number of smallest eigenpairs in ascending order", "statement": "solve returns n_eigenvectors pairs sorted by eigenvalue, values and vectors permuted consistently, and none of the discarded pairs is smaller. False: with several deflation cycles the list is cut to n before it is sorted, and with too few cycles it is padded with zero values and empty vectors.", "quantifier": "all cycle counts and per-cycle results", "why_tests_cant": "Depends on the distribution of eigenvalues over cycles.", "anchors": ["include/mfmg/common/lanczos.templates.hpp: Lanczos::solve"]}
{"id": "C32", "title": "Lanczos terminates within the iteration limit and always tests the last iterate", "statement": "The iteration performs at most max_iterations steps, evaluates the convergence test at the first and at the last step, and between tests the step count grows by at least the overshoot percentage.", "quantifier": "all max_iterations, overshoot percentages, convergence behaviours", "why_tests_cant": "All control-flow histories.", "anchors": ["include/mfmg/common/lanczos.templates.hpp: details_solve_lanczos"]}
{"id": "C33", "title": "No out-of-bounds access when eigenvalues are purged", "statement": "When purging leaves fewer pairs than requested the iteration continues or reports failure. False: the convergence test and the final evaluation index the returned empty arrays (undefined behaviour).", "quantifier": "all purge outcomes", "why_tests_cant": "Needs rare floating-point coincidences.", "anchors": ["include/mfmg/common/lanczos.templates.hpp: details_check_convergence, details_calc_evecs, details_solve_lanczos"]}
{"id": "C34", "title": "Lexicographic sort permutation", "statement": "sort_permutation(v1, v2) returns a permutation of the indices that orders the pairs (v1[i], v2[i]) lexicographically.", "quantifier": "all pairs of equally long vectors", "why_tests_cant": "All lengths, ties included.", "anchors": ["include/mfmg/common/utils.hpp: sort_permutation"]}
{"id": "C35", "title": "In-place permutation", "statement": "apply_permutation_in_place(p, v) with a permutation p of v's indices terminates and yields v'[i] = v[p[i]] for all i, touching each element once; for an index vector that is not a permutation it may read out of range or never terminate.", "quantifier": "all permutations and vectors, all non-permutations", "why_tests_cant": "Termination over all cycles structures.", "anchors": ["include/mfmg/common/utils.hpp: apply_permutation_in_place"]}
{"id": "C36", "title": "Parameter tree to ParameterList conversion keeps structure and types", "statement": "ptree2plist keeps names, nesting and order, and gives each leaf the first type in int, double, bool, string that can represent it; reading the generated XML back yields the same tree for names and values free of XML special characters, and fails to do so for some containing a quote.", "quantifier": "all property trees", "why_tests_cant": "All trees and all strings.", "anchors": ["source/common/utils.cc: ptree2plist, ptree2plist_internal"]}
{"id": "C37", "title": "Component factories accept exactly the documented names", "statement": "Smoother, coarse solver and hierarchy helper factories accept their documented names in any letter case (evaluator types exactly), build the corresponding component and throw for anything else; nothing is built silently for an unknown name.", "quantifier": "all strings and dimensions", "why_tests_cant": "All strings.", "anchors": ["source/dealii/dealii_smoother.cc", "source/dealii/dealii_matrix_free_smoother.cc", "source/dealii/dealii_solver.cc", "include/mfmg/common/hierarchy.hpp: create_hierarchy_helpers", "source/cuda/cuda_smoother.cu", "source/cuda/cuda_solver.cu"]}
{"id": "C38", "title": "Matrix-free A R^T agrees with the matrix product up to the drop tolerance", "statement": "matrix_transpose_matrix_multiply returns, entry by entry, A B^T with entries of modulus at most 1e-14 replaced by zero; every entry differs from the exact one by at most 1e-14.", "quantifier": "all linear operators A and sparse matrices B", "why_tests_cant": "All operators.", "anchors": ["include/mfmg/dealii/dealii_utils.hpp: matrix_transpose_matrix_multiply", "source/dealii/dealii_utils.cc: extract_row"]}
{"id": "C39", "title": "Initial guesses vanish exactly on constrained dofs", "statement": "The eigensolver start vectors are zero on constrained dofs, and the LOBPCG guess assembled from previous eigenvectors stays zero there and is nonzero elsewhere whenever the random guess is; Lanczos' random perturbation keeps zeros zero.", "quantifier": "all constraint sets, stored guesses and random draws", "why_tests_cant": "All constraint patterns and random streams.", "anchors": ["source/dealii/dealii_mesh_evaluator.cc: set_initial_guess", "include/mfmg/dealii/amge_host.templates.hpp: anasazi_compute", "include/mfmg/common/lanczos.templates.hpp: details_set_initial_guess"]}
{"id": "C40", "title": "Diagonal shift does not change the computed eigenpairs", "statement": "The matrix-based eigensolver path shifts the diagonal by its average and moves constrained dofs to a large diagonal value; an eigenpair of the shifted matrix with zero constrained entries, shifted back, is an eigenpair of the unconstrained block of the original matrix.", "quantifier": "all symmetric matrices, constraint sets", "why_tests_cant": "Algebraic identity over all matrices.", "anchors": ["include/mfmg/dealii/amge_host.templates.hpp: compute_local_eigenvectors (matrix-based)"]}
{"id": "C41", "title": "Multivector operations follow their algebraic specification", "statement": "MvAddMv, MvTimesMatAddMv, MvTransMv, MvDot, MvScale, SetBlock, CloneCopy and CloneView on distinct multivectors compute the documented results; CloneCopy never aliases, CloneView always does. False for MvAddMv when the output aliases the second operand.", "quantifier": "all numbers of vectors, coefficients, index sets, aliasing patterns", "why_tests_cant": "All aliasing patterns.", "anchors": ["include/mfmg/dealii/multivector.hpp", "include/mfmg/dealii/anasazi_traits.hpp"]}
{"id": "C42", "title": "Eigenpair extraction stays in bounds", "statement": "AnasaziSolver::solve returns as many eigenvalues as eigenvectors, never writing outside the result vectors. False when the solver reports more pairs than requested (only the minimum is allocated, the loop runs over all).", "quantifier": "all solver outcomes", "why_tests_cant": "Depends on an external solver's result size.", "anchors": ["include/mfmg/dealii/anasazi.templates.hpp: AnasaziSolver::solve"]}
{"id": "C43", "title": "Distributed vector gathering reproduces the global vector", "statement": "gather_vector gives every process the full vector in global index order, for every distribution of indices over processes (contiguous or not).", "quantifier": "all process counts and index sets partitioning [0,n)", "why_tests_cant": "All distributions.", "anchors": ["include/mfmg/cuda/sparse_matrix_device.templates.cuh: gather_vector, reorder_vector", "source/cuda/utils.cu: all_gather"]}
{"id": "C44", "title": "Conversion to device CSR preserves the matrix", "statement": "convert_matrix of a deal.II matrix yields a CSR matrix with the same entries and increasing column indices in each row; the scan that moves the diagonal reads one element past the end of the index array whenever the diagonal is the last entry of its row. The conversions of Trilinos and Epetra matrices, and back to Trilinos, preserve the entries too; a process without local entries makes the Trilinos conversion fail.", "quantifier": "all sparsity patterns and values", "why_tests_cant": "All patterns.", "anchors": ["source/cuda/utils.cu: convert_matrix(dealii::SparseMatrix)"]}
{"id": "C45", "title": "AMGX renumbering is a bijection and preserves the linear system", "statement": "csr_to_amgx numbers owned rows 0..n-1 (rows not sent first, sent rows last) and halo columns from n on, injectively; rows, columns and values are permuted consistently and sorted, and permuting b, solving and permuting back gives the original solution.", "quantifier": "all index sets, sparsity patterns and sets of sent rows", "why_tests_cant": "All partitions.", "anchors": ["source/cuda/utils.cu: csr_to_amgx", "source/cuda/cuda_solver.cu: amgx_solve"]}
{"id": "C46", "title": "Using an operator does not change it", "statement": "CudaMatrixOperator::apply and transpose are const: after any sequence of calls, apply(NO_TRANS) multiplies by A, apply(TRANS) by A^T and transpose() returns A^T. False: the second transpose() swaps the stored matrices.", "quantifier": "all finite call histories", "why_tests_cant": "History property; the tests call transpose once.", "anchors": ["source/cuda/cuda_matrix_operator.cu: apply, transpose"]}
{"id": "C47", "title": "Device memory is released exactly once", "statement": "Every device allocation made by SparseMatrixDevice is freed exactly once over any sequence of constructions, moves, copies, reinitialisations and destructions. No double free ever; move assignment over a non-empty matrix, and each vmult, leak. Every call reads only live, initialised device arrays; false when a product is stored into its own factor. A matrix that was moved from can be moved, assigned and destroyed again; one made by the default constructor cannot be copied, moved or assigned.", "quantifier": "all finite operation histories", "why_tests_cant": "History property.", "anchors": ["include/mfmg/cuda/sparse_matrix_device.templates.cuh"]}
{"id": "C48", "title": "Solver handles are destroyed exactly once", "statement": "The coarse solver destroys every AMGX handle it created. False: the destructor nulls the matrix handle instead of the solution handle, so the matrix object is never destroyed.", "quantifier": "all solver life cycles", "why_tests_cant": "Leak is not observable in unit tests.", "anchors": ["source/cuda/cuda_solver.cu: CudaSolver::~CudaSolver"]}
{"id": "C49", "title": "The device Jacobi smoother inverts the diagonal", "statement": "The smoother matrix has exactly the reciprocal of each stored diagonal entry on its diagonal. Holds when the process owns rows starting at 0; false on other processes, where global column indices are compared with local row indices.", "quantifier": "all distributions of rows, all sparsity patterns", "why_tests_cant": "All partitions.", "anchors": ["source/cuda/cuda_smoother.cu: extract_inv_diag, CudaSmoother"]}
{"id": "C50", "title": "The reported number of nonzeros is global", "statement": "n_nonzero_elements (and operator_complexity) reports the sum over all processes. False: the result of the reduction is discarded.", "quantifier": "all process counts and local counts", "why_tests_cant": "Needs multi-process reasoning.", "anchors": ["include/mfmg/cuda/sparse_matrix_device.templates.cuh: SparseMatrixDevice, reinit", "source/cuda/cuda_matrix_operator.cu: operator_complexity"]}
{"id": "C51", "title": "Send and receive lists match between neighbours", "statement": "For a structurally symmetric matrix the neighbour, send and receive lists built for AMGX are consistent: process p sends to q exactly the rows q receives from p. For unsymmetric patterns false: the receive list can be shorter than the neighbour list (out-of-bounds access), or be attributed to the wrong neighbour.", "quantifier": "all process counts and sparsity patterns", "why_tests_cant": "All patterns and distributions.", "anchors": ["source/cuda/cuda_solver.cu: CudaSolver::CudaSolver"]}
{"id": "C52", "title": "The V-cycle preconditioner is positive definite", "statement": "If operators, smoothers and coarse solver are symmetric, every smoother is strictly convergent (2B - BAB positive definite), at least one smoothing step is done and the coarse solve is positive definite, then <vmult(b), b> > 0 for every b != 0, for any number of levels. CG relies on it.", "quantifier": "all level counts, smoothing step counts >= 1, right-hand sides, symmetric components", "why_tests_cant": "Positive definiteness over all vectors and depths cannot be sampled.", "anchors": ["include/mfmg/common/hierarchy.hpp: Hierarchy::apply"]}
{"id": "C53", "title": "A standalone cycle never increases the energy error, and strictly decreases it when smoothers converge", "statement": "With Galerkin coarse operators, a positive semi-definite fine operator, solvable coarse residual equations and convergent smoothers, one standalone cycle (two or more levels) never increases the energy norm of the error; with strictly convergent smoothers and a positive definite coarse solver it strictly decreases it unless x already solves the system.", "quantifier": "all level counts >= 2, right-hand sides, initial guesses", "why_tests_cant": "Monotonicity for all inputs and depths.", "anchors": ["include/mfmg/common/hierarchy.hpp: Hierarchy::apply"]}
{"id": "C54", "title": "On a box of cells the block partitioner produces the block tiling", "statement": "If the locally owned cells form an X x Y (x Z) box and the iteration visits a cell before cells with larger coordinates, two owned cells get the same agglomerate id iff they lie in the same nx x ny (x nz) tile, and the count returned is ceil(X/nx)*ceil(Y/ny)(*ceil(Z/nz)); blocks at the upper ends are truncated, not merged.", "quantifier": "all box sizes, all block sizes >= 1, all admissible iteration orders (lexicographic, Morton, ...), dim 2 and 3", "why_tests_cant": "Tests check a few grid and block sizes; the tiling claim covers all of them and all orders.", "anchors": ["include/mfmg/common/amge.templates.hpp: AMGe::build_agglomerates_block"]}
{"id": "C55", "title": "Agglomerates of the block partitioner are never larger than requested", "statement": "On any mesh, whatever its neighbour relation, an agglomerate has at most nx*ny (2D) or nx*ny*nz (3D) cells (one cell when a block size is 0).", "quantifier": "all meshes, all block sizes, all iteration orders", "why_tests_cant": "Local eigenproblem cost depends on it for every mesh.", "anchors": ["include/mfmg/common/amge.templates.hpp: AMGe::build_agglomerates_block"]}
{"id": "C56", "title": "User multigrid parameters augment the defaults", "statement": "When the coarse solver is ML, the parameters the user gives are added to ML's smoothed-aggregation defaults: every default the user does not mention keeps its value and every parameter the user gives takes effect. The second half holds; the first is false: the user's list replaces the defaults.", "quantifier": "all parameter trees, all default lists", "why_tests_cant": "Depends on the whole parameter tree; tests use one.", "anchors": ["source/dealii/dealii_solver.cc: DealIISolver::DealIISolver", "source/common/utils.cc: ptree2plist"]}
{"id": "C57", "title": "Unknown eigensolver names are rejected", "statement": "A name other than arpack, lanczos, anasazi, lapack is reported as an error. True in debug builds; false in release builds, where every unknown (or differently capitalised) name silently yields zero eigenvectors.", "quantifier": "all names, matrices, numbers of eigenvectors, build modes", "why_tests_cant": "Infinitely many names; tests run in debug mode.", "anchors": ["include/mfmg/dealii/amge_host.templates.hpp: AMGe_host::compute_local_eigenvectors", "include/mfmg/common/exceptions.hpp: ASSERT"]}
{"id": "C58", "title": "The LAPACK eigensolver path reads only what LAPACK found", "statement": "With type lapack, n_eigenvectors pairs are returned and no memory outside LAPACK's results is read. Holds when at least n eigenvalues of the shifted matrix lie in (-0.5, 100]; false otherwise, for instance for every multiple c*I with c > 50.", "quantifier": "all matrices, sizes, numbers of eigenvectors, sets of constraints", "why_tests_cant": "Depends on the spectrum of each agglomerate matrix.", "anchors": ["include/mfmg/dealii/amge_host.templates.hpp: AMGe_host::compute_local_eigenvectors"]}
{"id": "C59", "title": "Eigenvalues and eigenvectors stay aligned", "statement": "compute_local_eigenvectors returns as many eigenvalues as eigenvectors, the k-th of which belong together. True when the iterative solver delivers what was requested; in release builds false whenever it delivers fewer: the list of eigenvalues is then padded.", "quantifier": "all solver results, all numbers of requested pairs, build modes", "why_tests_cant": "Convergence failures of the inner solver are rare in tests.", "anchors": ["include/mfmg/dealii/amge_host.templates.hpp: lanczos_compute_eigenvalues_and_eigenvectors, anasazi_compute_eigenvalues_and_eigenvectors"]}
{"id": "C60", "title": "Random multivectors are fresh", "statement": "Filling multivectors with random numbers (as Anasazi does to complete or repair a basis) gives each vector new numbers, and leaves constrained dofs at zero. Both false: the generator is re-seeded in every call, so two blocks filled one after the other are equal, and every component is overwritten.", "quantifier": "all random sequences, numbers and sizes of vectors", "why_tests_cant": "Linear dependence between calls shows up only as rare breakdowns.", "anchors": ["include/mfmg/dealii/anasazi_traits.hpp: MvRandom"]}
{"id": "C61", "title": "The device matrix-vector product is the global product", "statement": "For every distribution of a matrix's rows and of a vector over the processes, and every order in which the device threads run, vmult gathers the source vector and yields, on each process, the rows of the product of the global matrix with the global vector; converting a matrix to the device and multiplying gives the same as multiplying on the host.", "quantifier": "all process counts, row distributions, matrices, vectors, thread schedules", "why_tests_cant": "Distributions and schedules are unbounded; tests run one or two processes.", "anchors": ["include/mfmg/cuda/sparse_matrix_device.templates.cuh: gather_vector, vmult", "include/mfmg/cuda/utils.cuh: all_gather_dev"]}
{"id": "C62", "title": "Building and applying the AMGX solver leaves its arguments unchanged", "statement": "The constructor leaves the operator's matrix as it was and apply leaves the right-hand side, which is const, as it was. With host vectors the right-hand side is unchanged. False otherwise: with device vectors the right-hand side comes back permuted, and a distributed operator's matrix is overwritten with the AMGX numbering of rows and columns; on one process only the order of the entries inside a row changes.", "quantifier": "all matrices, distributions, right-hand sides, solvers", "why_tests_cant": "Tests use one process and do not use the operator or right-hand side after the solve.", "anchors": ["source/cuda/cuda_solver.cu: amgx_solve, CudaSolver::CudaSolver", "source/cuda/utils.cu: csr_to_amgx"]}
{"id": "C63", "title": "Operators returned by operator calls can be applied", "statement": "The operator returned by transpose, multiply or multiply_transpose of a device operator can itself be applied and gives the corresponding product. False for multiply_transpose on several processes: the result has no cuSPARSE handle or descriptor, so applying it aborts in debug builds and silently leaves the destination unwritten in release builds.", "quantifier": "all operators, process counts, build modes and call sequences", "why_tests_cant": "Tests read the entries of the result instead of applying it.", "anchors": ["source/cuda/cuda_matrix_operator.cu: multiply_transpose, transpose, apply", "include/mfmg/cuda/sparse_matrix_device.templates.cuh: mmult"]}
{"id": "C64", "title": "The debug check of the restriction matrix accepts exactly the correct matrices", "statement": "In debug builds check_restriction_matrix aborts exactly when, at some dof, the agglomerate diagonals do not sum to the global diagonal up to the relative tolerance 1e-14, and it never reads out of bounds; in release builds it does nothing. True when every agglomerate has at least one eigenvector; false otherwise: a process whose last agglomerate has none reads past the end of the list of eigenvectors, and one without eigenvectors followed by a larger one reads past the end of its dof map.", "quantifier": "all process counts, numbers and shapes of agglomerates, eigenvectors, diagonals, build modes", "why_tests_cant": "Tests run it on one mesh on which every agglomerate has eigenvectors.", "anchors": ["include/mfmg/common/utils.hpp: check_restriction_matrix"]}
{"id": "C65", "title": "Hierarchies with any number of levels can be built and applied", "statement": "For every value of 'max levels' the constructor builds a hierarchy whose operators and restrictors fit together, and applying it to vectors of the size of the finest level succeeds. True for one and two levels; false for three and more: the restrictor of every level is built from the evaluator of the finest mesh, so unless the restrictor happens to be square the constructor aborts in debug builds, and otherwise (release builds, or fast_ap) every application multiplies a matrix with a vector of the wrong size.", "quantifier": "all meshes, operators, numbers of levels, eigenvectors and agglomerates, smoothers, solvers, vectors, build modes", "why_tests_cant": "Tests build one- and two-level hierarchies only.", "anchors": ["include/mfmg/common/hierarchy.hpp: Hierarchy::Hierarchy, Hierarchy::apply", "source/dealii/dealii_hierarchy_helpers.cc: build_restrictor", "source/dealii/dealii_trilinos_matrix_operator.cc: multiply_transpose"]}
{"id": "C66", "title": "Operators made from host operators apply as compositions", "statement": "However host operators are combined by transpose, multiply and multiply_transpose, applying the result, in either mode, gives the composition of the products with the original matrices, and combinations that are not supported are reported by an exception. True for assembled operators; a matrix-free operator supports multiply_transpose as the left operand (up to 1e-14 per entry) and throws for everything else. False for a matrix-free right operand: a null pointer is dereferenced.", "quantifier": "all expressions of any depth, matrices, vectors, build modes", "why_tests_cant": "Expressions are unbounded; tests try single products.", "anchors": ["source/dealii/dealii_trilinos_matrix_operator.cc: apply, transpose, multiply, multiply_transpose", "source/dealii/dealii_matrix_free_operator.cc: apply, transpose, multiply, multiply_transpose"]}
{"id": "C67", "title": "The device returns the smallest eigenpairs of an agglomerate", "statement": "For every agglomerate matrix, every requested number of eigenvectors and every order in which the device threads run, compute_local_eigenvectors on the device returns that many eigenpairs, those of the smallest eigenvalues counted with multiplicity, and the diagonal of the matrix, without touching memory outside its arrays. True for 1 to n eigenvectors of an agglomerate with n dofs; false for more than n (read past the end of the eigenvalues) and for none (2^32 threads are started, half of which have a negative index and pass the bounds check).", "quantifier": "all matrices with up to 46340 rows, numbers of eigenvectors, thread schedules, contents of new device memory", "why_tests_cant": "Schedules and matrices are unbounded; tests request a few eigenvectors of one matrix.", "anchors": ["include/mfmg/cuda/amge_device.templates.cuh: compute_local_eigenvectors, extract_diag, fill_identity_matrix, restrict_array"]}
{"id": "C68", "title": "The restriction matrix set up on the device has the rows it should have and leaks nothing", "statement": "For every mesh partition, every number of eigenvectors and every order of the device threads, the rows of the restriction matrix set up on the device are the eigenvectors of the smallest eigenvalues, agglomerate by agglomerate and process by process, weighted with the agglomerate's share of the global diagonal, and all device memory allocated on the way is released. The first part is true when every agglomerate has at least as many dofs as eigenvectors are requested; the second is false: for every agglomerate exactly two allocations (the matrix descriptor and the array of smallest eigenvalues) are never released.", "quantifier": "all numbers of processes and agglomerates, agglomerate matrices, numbers of eigenvectors, thread schedules, contents of new device memory", "why_tests_cant": "Partitions and schedules are unbounded; leaks do not change results.", "anchors": ["include/mfmg/cuda/amge_device.templates.cuh: setup_restrictor, compute_local_eigenvectors, compute_restriction_sparse_matrix"]}
{"id": "C69", "title": "The direct solvers on the device solve the system or report failure", "statement": "With type cholesky, lu_dense or lu_sparse_host the coarse solver on the device returns the solution for every matrix it applies to, for host and device vectors, and reports singular matrices and unknown names. True on one process for symmetric positive definite (cholesky) and nonsingular (lu) matrices, and unknown names throw. False for singular matrices in release builds, where the LU solvers return normally, and false on several processes, where each solver reads past the end of the local row pointers.", "quantifier": "all matrices, right-hand sides, names, build modes, numbers of processes, host and device vectors", "why_tests_cant": "Matrices are unbounded; tests solve one nonsingular system on one process.", "anchors": ["source/cuda/cuda_solver.cu: DirectSolver::apply, CudaSolver::apply", "source/cuda/dealii_operator_device_helpers.cu: cholesky_factorization, lu_factorization"]}
{"id": "C70", "title": "fast_ap gives A R^T whatever the number of eigenvectors of each agglomerate", "statement": "With 'fast_ap', the product A R^T computed from the agglomerates equals the product of the matrices even if the agglomerates have different numbers of eigenvectors (release builds: the iterative eigensolvers may deliver fewer than requested). True when all agglomerates have the same number; false otherwise: the rows left over when the number of rows is divided by the number of agglomerates get no correction, under every schedule.", "quantifier": "all meshes, agglomerates, numbers of eigenvectors, thread schedules, build modes", "why_tests_cant": "Needs an eigensolver that fails on some but not all agglomerates.", "anchors": ["source/dealii/dealii_hierarchy_helpers.cc: build_restrictor", "source/dealii/dealii_matrix_free_hierarchy_helpers.cc: build_restrictor"]}
{"id": "C71", "title": "Every device kernel launch touches exactly its elements, with 32-bit thread numbers", "statement": "For every matrix, with thread numbers computed in 32-bit integers as the kernels do and in every order of the threads, the kernels that build the device Jacobi smoother and gather vectors for matrix products write every element they should and no other memory. True for processes with at least one row and one entry and sizes below 2^31, and for the matrix product also on processes without rows. False for the smoother on a process without entries: 1 + (0 - 1) / 512 blocks in unsigned arithmetic start 2^32 threads, half of which have a negative index and pass the bounds check.", "quantifier": "all matrices with fewer than 2^31 entries, partitions over processes, thread schedules", "why_tests_cant": "Tests use sizes far from the 32-bit limits and no process without rows.", "anchors": ["source/cuda/cuda_smoother.cu: CudaSmoother, extract_inv_diag", "source/cuda/dealii_operator_device_helpers.cu: iota", "include/mfmg/cuda/sparse_matrix_device.templates.cuh: reorder_vector, vmult"]}
{"id": "C72", "title": "Patch meshes carry the boundary ids of the global mesh", "statement": "For every mesh and agglomerate, each face of the patch mesh that lies on the boundary of the global mesh gets the boundary id it has there, so that an evaluator can tell these faces from the artificial boundary of the patch. The ids are copied exactly; telling the two apart works if no face of the global mesh has boundary id 0, and fails for id 0, which is deal.II's default and also the id of the artificial faces.", "quantifier": "all meshes, agglomerates, boundary ids, orders of cells and faces", "why_tests_cant": "Meshes are unbounded; tests use one id per mesh.", "anchors": ["include/mfmg/common/amge.templates.hpp: build_agglomerate_triangulation"]}
{"id": "C73", "title": "The matrix-free product on the device is A B^T on any number of processes", "statement": "For a matrix-free operator A on the device and an assembled device operator B, multiply_transpose returns an operator that can be applied and that maps x to (A B^T) x up to 1e-14 times the sum of the moduli of x, for every distribution of rows over the processes, every thread schedule and both build modes. True if every process owns a row of the product with an entry above the threshold; false otherwise (for instance on a process without unknowns): the debug build aborts and the release build takes the address of an element of an empty vector. A right operand of another kind leads to a null dereference.", "quantifier": "all operators, matrices, distributions, vectors, thread schedules, build modes, orders of the entries in the rows", "why_tests_cant": "Distributions and matrices are unbounded; tests use balanced meshes.", "anchors": ["source/cuda/cuda_matrix_free_operator.cu: multiply_transpose", "source/cuda/utils.cu: convert_to_trilinos_matrix, convert_matrix", "include/mfmg/dealii/dealii_utils.hpp: matrix_transpose_matrix_multiply"]}
{"id": "C74", "title": "The coarse problem is solvable whatever number of eigenvectors is requested", "statement": "For a symmetric positive definite problem the coarse operator R A R^T is symmetric positive definite, so that the coarse solver has exactly one solution to find, for every agglomeration and every number of eigenvectors. It is so exactly if the rows of R are linearly independent; this holds if the eigenvectors of every agglomerate are independent on the unknowns that belong to no other agglomerate. It is false whenever the agglomerates together deliver more eigenvectors than there are unknowns (small agglomerates with several eigenvectors): the coarse operator is then singular for every problem, and nothing in the set-up reports it.", "quantifier": "all agglomerations, numbers of eigenvectors, eigenvectors, distributions over processes, symmetric positive definite operators", "why_tests_cant": "Matrices and agglomerations are unbounded; tests use one or two eigenvectors on large agglomerates.", "anchors": ["include/mfmg/common/amge.templates.hpp: compute_restriction_sparse_matrix", "include/mfmg/common/hierarchy.hpp: Hierarchy::Hierarchy"]}
{"id": "C75", "title": "The cycle converges for every symmetric positive definite problem", "statement": "With the smoothers the library offers by name and at least one smoothing step, a hierarchy of two or more levels built for a symmetric positive definite matrix, with restriction matrices of full rank and a direct coarse solver, reduces the error in every standalone cycle at least by a fixed factor below one, and with the default smoother one cycle is a symmetric positive definite preconditioner. True on one process for symmetric Gauss-Seidel (default) and Gauss-Seidel, for every order of the rows. For Jacobi a smoothing step reduces every error exactly if 2 diag(A) - A is positive definite. True on any number of processes and for all three relaxation smoothers if the matrices have no positive entries off the diagonal. False on three or more processes for every smoother, because each process relaxes its own rows only: there are problems whose error grows in every cycle however many smoothing steps are made.", "quantifier": "all symmetric positive definite matrices, restriction matrices, numbers of levels and smoothing steps, right-hand sides, initial guesses, row orders, distributions over processes", "why_tests_cant": "Tests check convergence for the Laplace equation on one mesh.", "anchors": ["source/dealii/dealii_smoother.cc: DealIISmoother", "include/mfmg/common/hierarchy.hpp: Hierarchy::Hierarchy, Hierarchy::apply, Hierarchy::vmult"]}
{"id": "C76", "title": "No process is ever left waiting in a collective call", "statement": "Building a hierarchy and applying it never leaves a process waiting for ever: at any moment, for every share of the mesh (none included) on every member of the communicator, all members have ended or all wait in the same collective call, and the number of calls is bounded; in the end all members have a hierarchy, whose rows contain the weighted eigenvectors of the agglomerates, or none has. True as long as the eigenproblems of all members are solved. False when they fail on some members only: an eigensolver that is refused in matrix-free mode throws only where there are agglomerates, and a member without agglomerates waits for ever. False for the AMGX solver on a communicator that is not the world: it gathers on MPI_COMM_WORLD.", "quantifier": "all communicators, distributions of agglomerates and eigenvectors, numbers of levels and smoothing steps, parameters, interleavings with other processes", "why_tests_cant": "Interleavings and distributions are unbounded; a hang needs an uneven distribution.", "anchors": ["include/mfmg/common/hierarchy.hpp: Hierarchy::Hierarchy, Hierarchy::apply", "include/mfmg/common/amge.templates.hpp: compute_restriction_sparsity_pattern, compute_restriction_sparse_matrix", "include/mfmg/dealii/amge_host.templates.hpp: setup_restrictor, compute_local_eigenvectors", "include/mfmg/dealii/dealii_utils.hpp: matrix_transpose_matrix_multiply", "source/cuda/cuda_solver.cu: CudaSolver"]}
{"id": "C77", "title": "The rate of convergence depends on the omitted eigenvalues, not on the size of the problem", "statement": "On one process, with (symmetric) Gauss-Seidel smoothing, two levels and a direct coarse solver: if the global matrix is the sum of the matrices of the agglomerates, the eigenvectors were computed correctly, every diagonal element of an agglomerate is at most kappa times the smallest eigenvalue left out there and no row of the matrix has more than s entries, then one standalone cycle multiplies the energy of the error at most by 1 - 1/(s^2 kappa), however many unknowns and agglomerates there are. In particular, keeping more eigenvectors improves the guaranteed rate. For a chain of any number of agglomerates and default parameters the factor is 25/27.", "quantifier": "all numbers of unknowns and agglomerates, matrices, numbers of eigenvectors, orders of the rows, right-hand sides, initial guesses, numbers of cycles and smoothing steps", "why_tests_cant": "The claim is about the limit of large problems; tests compare a few mesh sizes.", "anchors": ["include/mfmg/common/amge.templates.hpp: compute_restriction_sparse_matrix", "include/mfmg/common/hierarchy.hpp: Hierarchy::Hierarchy, Hierarchy::vmult", "source/dealii/dealii_smoother.cc: DealIISmoother"]}
{"id": "C78", "title": "The Chebyshev smoother of matrix-free hierarchies makes the cycle converge, whatever the settings", "statement": "A two-level matrix-free hierarchy built for a symmetric positive definite operator, with a restriction matrix of full rank, a direct coarse solver and at least one smoothing step, reduces the error in every standalone cycle and is a symmetric positive definite preconditioner, for every degree, smoothing range and largest eigenvalue the user sets; the largest eigenvalue the user gives is honoured. A smoothing step reduces every error exactly if all eigenvalues of the operator scaled by the diagonal are below the sum of the two ends of the interval (1.2 times the largest estimate, and the lower end), for every degree; the cycle then converges. False in general: the estimates only see the part of the spectrum that the start vector of the estimate reaches, and there are operators for which the cycle multiplies an error by more than one for every setting. The parameter for the largest eigenvalue has no effect at all.", "quantifier": "all symmetric positive definite operators, positive diagonals, restriction matrices, degrees, smoothing ranges, largest eigenvalues, eigenvalue estimates that are Ritz values, numbers of smoothing steps, right-hand sides, initial guesses", "why_tests_cant": "The estimate is good for most operators; the failing ones have a dominant eigenvector orthogonal to the start vector.", "anchors": ["source/dealii/dealii_matrix_free_smoother.cc: DealIIMatrixFreeSmoother, apply", "source/dealii/dealii_matrix_free_hierarchy_helpers.cc: build_smoother", "include/mfmg/common/hierarchy.hpp: Hierarchy::vmult"]}
{"id": "C79", "title": "The weights of the restriction matrix come from the true global diagonal and are finite numbers", "statement": "Every process gets the diagonal elements of the global matrix at all its locally relevant dofs, ghosts included, so that the entries of the restriction matrix are computed from the true diagonal on every distribution of the dofs, never from an element that is not stored, and are finite numbers for every evaluator that keeps to the documentation. True for evaluators with an assembled matrix exactly if the diagonal has no zero at a dof of an agglomerate with an eigenvector. False for matrix-free evaluators that do what their documentation says (zero at constrained dofs): every row of an agglomerate with a constrained dof then contains an entry that is not a number, and so do the products with it; nothing is reported.", "quantifier": "all matrices, distributions of dofs and agglomerates over processes, eigenvectors, user-written diagonals, build types", "why_tests_cant": "The project's own matrix-free test evaluator sets constrained entries to one, against the documentation, so the case is never run.", "anchors": ["source/dealii/dealii_mesh_evaluator.cc: DealIIMeshEvaluator::get_diagonal", "include/mfmg/dealii/dealii_matrix_free_mesh_evaluator.hpp: get_diagonal", "include/mfmg/common/amge.templates.hpp: compute_restriction_sparse_matrix"]}
{"id": "C80", "title": "From the mesh to the restriction matrix: cells are divided, matrices add up, null vectors survive, and the set-up can be repeated", "statement": "On any number of processes, with every partitioner, eigensolver and thread schedule, the set-up of the restriction matrix on fresh meshes succeeds; every cell of a process lies in exactly one of its agglomerates and no agglomerate is empty; the agglomerate matrices add up to the global matrix, so the weights add up to one at every dof with nonzero diagonal; a vector that the agglomerate matrices annihilate (constants, rigid body motions) is reproduced exactly by one coarse vector at all dofs concerned, if only eigenvectors with positive eigenvalues are left out; on one process the guaranteed rate of convergence follows. A second set-up on the same meshes gives the same matrix. The last part is true with the graph partitioners and false with the block partitioner: every second set-up, with any block sizes, has no agglomerates on any process and a restriction matrix without entries, and nothing is reported.", "quantifier": "all meshes, numbers of processes, distributions of cells, partitioners, parameters, cell matrices, eigensolvers, thread schedules, build types", "why_tests_cant": "Tests build one hierarchy per mesh, on a few meshes.", "anchors": ["include/mfmg/dealii/amge_host.templates.hpp: setup_restrictor, compute_local_eigenvectors", "include/mfmg/common/amge.templates.hpp: build_agglomerates, build_agglomerates_block, build_agglomerates_partitioner, compute_restriction_sparse_matrix"]}
{"id": "C81", "title": "Building a hierarchy leaves the caller's parameters, and so later hierarchies, as they were", "statement": "After the constructor returns or throws, every entry of the parameter tree the caller passed (by shared pointer) reads as before, so that a later hierarchy built from the same tree is the one a fresh copy would give. True for two or more levels; with one level every entry except coarse.params.zero starting solution and the nodes on its path keeps its value, and building again gives the same hierarchy. False for one level: that entry is overwritten even if the caller had set it, and a caller with coarse.type ml who gave no parameters for ML gets one single parameter instead of all of ML's defaults, for this hierarchy and for every later one from the same tree.", "quantifier": "all parameter trees, numbers of levels, helpers that may throw at any point, later changes of the tree by the caller, build types", "why_tests_cant": "Tests read the parameters from a file for every hierarchy and do not look at the tree afterwards.", "anchors": ["include/mfmg/common/hierarchy.hpp: Hierarchy::Hierarchy", "source/dealii/dealii_solver.cc: DealIISolver", "source/common/utils.cc: ptree2plist"]}
{"id": "C82", "title": "In floating-point arithmetic a cycle is the exact cycle up to rounding", "statement": "For every hierarchy there is a constant such that in every arithmetic with unit roundoff u in which the constant times u is at most one, a cycle returns and every component of its result differs from the cycle in exact arithmetic by at most the constant times u, relative to right-hand side and initial guess. In general: components with a relative error c give a cycle with a relative error of a constant times c, and the constant depends only on the numbers of levels and smoothing steps and on bounds of the maps, not on the size of the problem. Standalone cycles converge at the exact rate plus that error until the error is of the order of rounding; a symmetric preconditioner stays symmetric up to rounding; as a preconditioner the result does not depend on old contents of any vector to the last bit. The weights of a dof add up to one up to rounding, and in no precision exactly.", "quantifier": "all matrices, levels, smoothing steps, right-hand sides, initial guesses, arithmetics that meet the standard model (rounding to nearest with any number of digits, with or without fused operations), orders of summation of the cells", "why_tests_cant": "A test sees the rounding errors of one problem on one machine, and compares with a tolerance found by trial.", "anchors": ["include/mfmg/common/hierarchy.hpp: Hierarchy::apply", "source/dealii/dealii_smoother.cc: DealIISmoother::apply", "source/dealii/dealii_trilinos_matrix_operator.cc: DealIITrilinosMatrixOperator::apply", "include/mfmg/common/amge.templates.hpp: AMGe::compute_restriction_sparse_matrix"]}
{"id": "C83", "title": "A hierarchy can be applied for as long as it is held, and everything is destroyed in time", "statement": "For as long as a program holds a hierarchy it may apply it, whatever else it has given up in the meantime: mesh, DoFHandler, constraints, evaluator, parameters, timer, CUDA handle, other hierarchies. Handles may be given up in any order; no object is destroyed while another object of the library refers to it, none is destroyed twice, and when the program holds nothing any more nothing is left.", "quantifier": "all programs: any number of objects, evaluators of the three kinds and hierarchies with any number of levels, created, copied, applied and given up in any order; debug and release mode", "why_tests_cant": "A test destroys its objects in the one order of its scopes, and reading a destroyed object often gives the old values.", "anchors": ["include/mfmg/common/hierarchy.hpp: Hierarchy", "include/mfmg/common/level.hpp: Level", "include/mfmg/common/smoother.hpp: Smoother", "include/mfmg/common/solver.hpp: Solver", "include/mfmg/dealii/dealii_mesh_evaluator.hpp: DealIIMeshEvaluator", "source/dealii/dealii_matrix_free_mesh_evaluator.cc: DealIIMatrixFreeMeshEvaluator::build_range_vector", "source/dealii/dealii_matrix_free_smoother.cc: DealIIMatrixFreeSmoother", "source/cuda/cuda_solver.cu: CudaSolver", "source/cuda/cuda_smoother.cu: CudaSmoother", "include/mfmg/cuda/sparse_matrix_device.cuh: SparseMatrixDevice"]}
{"id": "C84", "title": "The rate of convergence does not depend on the number of levels", "statement": "On one process, with (symmetric) Gauss-Seidel smoothing, restriction matrices of full rank that approximate errors in the energy with one constant kappa, and at most s entries per row of every operator: a standalone cycle multiplies the energy of the error at most by 1 - 1/(s^2 kappa), and the cycle as a preconditioner is spectrally equivalent to the inverse with a ratio of at most 2 s^2 kappa, for every number of levels and of unknowns. If the restriction matrices only approximate errors in the weighted norm, the same holds with a factor per level.", "quantifier": "all symmetric positive definite matrices, restriction matrices, numbers of levels, of unknowns and of smoothing steps, right-hand sides and initial guesses", "why_tests_cant": "A test solves a few problems with a few levels; whether the number of iterations stays bounded as levels are added is a statement about all of them.", "anchors": ["include/mfmg/common/hierarchy.hpp: Hierarchy::Hierarchy, Hierarchy::apply, Hierarchy::vmult", "source/dealii/dealii_smoother.cc: DealIISmoother", "source/dealii/dealii_trilinos_matrix_operator.cc: DealIITrilinosMatrixOperator::multiply_transpose"]}
{"id": "C85", "title": "A release build computes what a debug build computes", "statement": "Every call that returns in a debug build returns the same result in a release build, and leaves behind the same: the same hierarchy with the same timer sections and the same parameter tree, the same agglomerates, restriction matrices, eigenvectors, products, device matrices and allocations. Exceptions are the same too, but for one that only debug builds throw, \"Mesh locally refined\". The only other difference is that a debug build stops at a failed assertion.", "quantifier": "all arguments of all functions in the model that contain an assertion or a part compiled in debug builds only: any mesh, partition, schedule, matrix, parameter tree, and any history of calls on device matrices, operators and shared objects", "why_tests_cant": "Tests are run in one build, or in both on the same few inputs; that an assertion, or the code only compiled with it, has no effect on any result is a statement about all inputs.", "anchors": ["include/mfmg/common/exceptions.hpp: ASSERT, ASSERT_CUDA, ASSERT_CUSPARSE, ASSERT_CUSOLVER", "include/mfmg/common/amge.templates.hpp: AMGe::build_agglomerates_block", "include/mfmg/common/hierarchy.hpp: Hierarchy::Hierarchy", "include/mfmg/common/lanczos.templates.hpp: Lanczos", "source/cuda/dealii_operator_device_helpers.cu: lu_factorization", "include/mfmg/cuda/sparse_matrix_device.templates.cuh: SparseMatrixDevice"]}
{"id": "C86", "title": "An application changes nothing but its output vector", "statement": "vmult(x, b) leaves the result of the cycle in x and changes no other vector of the program; the local vectors it makes are gone when it returns. If a call inside it throws, at any point, then no vector but x has changed and no local vector is left. True as long as x and b are different objects. False for vmult(x, x), which the signature allows: a preconditioner sets x to zero before it reads b, so that the result is zero whatever x was.", "quantifier": "all hierarchies with any number of levels and smoothing steps, all contents of all vectors of the program and of newly built vectors, every point at which an exception can leave the application", "why_tests_cant": "A test looks at the output vector of one application. That nothing else is touched, on every path out of a recursive function, needs a statement about all vectors and all points of exit; and results in place look plausible in tests that only check that the call returns.", "anchors": ["include/mfmg/common/hierarchy.hpp: Hierarchy::vmult, Hierarchy::apply", "include/mfmg/common/level.hpp: Level::build_vector", "source/dealii/dealii_smoother.cc: DealIISmoother::apply", "source/dealii/dealii_matrix_free_smoother.cc: DealIIMatrixFreeSmoother::apply", "source/dealii/dealii_solver.cc: DealIISolver::apply"]}
{"id": "C87", "title": "Hierarchies can be applied by several threads at the same time", "statement": "vmult is const: any number of threads may call it at the same time, on different hierarchies or on the same one, as long as no thread uses the output vector of another. There is no data race, and whatever the order in which their statements are executed each thread gets what it would get alone and nothing else changes. True for hierarchies without a timer whose direct coarse solvers, if any, are different objects. False for one hierarchy with the default (direct) coarse solver: every application stores pointers to its vectors in the solver. False with a timer: the applications must follow one another, otherwise a section is entered while it is active.", "quantifier": "any number of threads, any hierarchies, all contents of vectors, all orders of execution of the statements of the threads", "why_tests_cant": "Whether a race shows depends on the schedule; no number of runs covers the orders in which two recursive cycles can be interleaved.", "anchors": ["include/mfmg/common/hierarchy.hpp: Hierarchy::vmult, Hierarchy::apply, timer_enter_subsection, timer_leave_subsection", "source/dealii/dealii_smoother.cc: DealIISmoother::apply", "source/dealii/dealii_solver.cc: DealIISolver::apply"]}
{"id": "C88", "title": "Incomplete factorisation as a smoother", "statement": "With the smoother type \"ILU\" one application of the smoother's preconditioner solves exactly with an incomplete factorisation of the matrix: triangular factors in the order of the rows without entries outside the graph of the matrix or between processes, whose product agrees with the matrix on the graph. For symmetric matrices the preconditioner is symmetric. If elimination makes no fill, one step on one process gives the solution. Every smoothing step and every cycle decreases the energy of the error, and a cycle used as a preconditioner is symmetric positive definite. The last statement holds for Stieltjes matrices (no positive entries off the diagonal) on any number of processes, where no pivot is zero and no vector below the solution is moved above it. It is false for symmetric positive definite matrices in general, on one process already and also if all pivots are positive: an error can grow by a fixed factor in every cycle.", "quantifier": "all matrices of all sizes, all graphs containing the entries, all orders of the rows and distributions over processes, all right-hand sides and initial vectors, any number of levels and smoothing steps", "why_tests_cant": "Tests run the smoother on a few Laplace-like matrices, for which it converges. Which matrices make it diverge, and that there is no such matrix in a class, cannot be seen from runs.", "anchors": ["source/dealii/dealii_smoother.cc: DealIISmoother::DealIISmoother, DealIISmoother::apply", "include/mfmg/common/hierarchy.hpp: Hierarchy::vmult, Hierarchy::apply"]}
{"id": "C89", "title": "Change of units", "statement": "If the system matrix is multiplied by a positive number c, set-up and solution describe the same method in other units: the restriction weights are unchanged, a smoothing step or cycle maps the right-hand side c b and the same initial vector to the same vector, and a cycle used as a preconditioner returns the old result divided by c; the local eigenvectors and hence the restriction are the same. The code has four absolute constants that make the last statement false, in each case for all problems of a class and all c beyond a bound: entries below 1e-14 are dropped from the distributed product; the diagonal of constrained unknowns is set to 200, so that in small units every smallest eigenvector vanishes on the free unknowns; the LAPACK solver searches eigenvalues below 100; the Lanczos solver stops at an absolute residual and returns its random start vector for one eigenvector, and reads past an array for more.", "quantifier": "all matrices, sizes, numbers of levels and processes, smoothers, right-hand sides and initial vectors, all positive factors", "why_tests_cant": "Tests fix one set of units, in which matrix entries are of order one. That a result does not depend on the units is a relation between infinitely many runs.", "anchors": ["include/mfmg/dealii/amge_host.templates.hpp: AMGe_host::compute_local_eigenvectors", "include/mfmg/common/lanczos.templates.hpp: Lanczos::solve, Lanczos::details_calc_tridiag_epairs, Lanczos::details_check_convergence", "include/mfmg/dealii/dealii_utils.hpp: matrix_transpose_matrix_multiply", "include/mfmg/common/amge.templates.hpp: AMGe::compute_restriction_sparse_matrix", "source/dealii/dealii_smoother.cc: DealIISmoother::apply", "source/dealii/dealii_matrix_free_smoother.cc: DealIIMatrixFreeSmoother::apply", "include/mfmg/common/hierarchy.hpp: Hierarchy::vmult"]}
{"id": "C90", "title": "Numbering of the unknowns and number of processes", "statement": "The result of set-up and cycle does not depend on how the unknowns are numbered or on how they are divided among processes. True of the assembly of the restriction (any division of the agglomerates), of the whole method with the Jacobi smoother (any numbering, any division), of the Chebyshev smoother if the eigenvalue estimate is unchanged, and for every smoother if the order of the rows inside each process follows the renumbering. False for Gauss-Seidel, symmetric Gauss-Seidel and incomplete factorisation: one smoothing step gives the same result as on one row per process exactly if no process owns two coupled unknowns, and for the relaxation smoothers the same result in the opposite order exactly then; a cycle with two levels differs between one and two processes for all three.", "quantifier": "all matrices, sizes, numbers of levels, numberings, divisions among any number of processes, smoothers, right-hand sides and initial vectors", "why_tests_cant": "Tests run on one or a few process counts and compare convergence rates with tolerances; independence is a relation between runs on all numberings and all divisions.", "anchors": ["source/dealii/dealii_smoother.cc: DealIISmoother::apply", "source/dealii/dealii_matrix_free_smoother.cc: DealIIMatrixFreeSmoother::apply", "include/mfmg/common/amge.templates.hpp: AMGe::compute_restriction_sparse_matrix", "include/mfmg/common/hierarchy.hpp: Hierarchy::Hierarchy, Hierarchy::vmult"]}
{"id": "C91", "title": "The complete method on the device", "statement": "A hierarchy built from a device mesh evaluator returns, for every history of applications, with host and with device vectors, in debug and release builds, for every order of the threads and every content of uninitialised memory, the textbook cycle with Jacobi smoothing and exact coarse solution; this is the vector that the host hierarchy with the Jacobi smoother returns on any number of processes. True on one process for one and two levels. False beyond: with three or more levels the set-up aborts or is undefined because the second restriction is computed for the finest mesh; every application leaves 8 s + 6 device allocations behind for s smoothing steps; other smoothers, fast_ap and the matrix-free device evaluator are rejected; an unknown solver name is only noticed by the first application.", "quantifier": "all matrices with nonzero diagonal, restrictions, sizes, right-hand sides, histories of applications, thread schedules, contents of uninitialised memory, vector types and builds", "why_tests_cant": "Tests on the device compare single kernels or convergence rates on one mesh; that all kernels, conversions and library calls compose to the textbook cycle for all histories, and what is left in device memory, cannot be sampled.", "anchors": ["source/cuda/cuda_hierarchy_helpers.cu: CudaHierarchyHelpers", "source/cuda/cuda_matrix_operator.cu: CudaMatrixOperator", "source/cuda/cuda_smoother.cu: CudaSmoother, SmootherOperator::apply", "source/cuda/cuda_solver.cu: CudaSolver::apply", "include/mfmg/cuda/sparse_matrix_device.templates.cuh: SparseMatrixDevice::vmult, SparseMatrixDevice::mmult", "include/mfmg/common/hierarchy.hpp: Hierarchy::Hierarchy, Hierarchy::vmult"]}
{"id": "C92", "title": "The hierarchy as a preconditioner of the conjugate gradient method", "statement": "With 'is preconditioner' true, the conjugate gradient method as called by the distributed driver program, preconditioned with a hierarchy, solves every system with the given symmetric positive definite matrix to any tolerance in at most as many steps as there are unknowns, whatever uninitialised vectors contain, and after each number of steps it is at least as close to the solution in the energy norm as the same number of standalone cycles.", "quantifier": "all symmetric positive definite matrices, restrictions of full rank, distributions of the rows, right-hand sides, starting vectors, tolerances, contents of uninitialised memory, builds", "why_tests_cant": "Tests run the solver on one mesh with one random starting vector and compare the number of iterations; termination without division by zero, the step bound and the comparison with the standalone cycle concern all systems.", "anchors": ["tests/hierarchy_driver.cc: matrix_based_two_grids, matrix_free_two_grids", "include/mfmg/common/hierarchy.hpp: Hierarchy::vmult, Hierarchy::apply"]}
{"id": "C93", "title": "The number of iterations does not depend on the number of unknowns", "statement": "With symmetric Gauss-Seidel smoothing on one process, the number of steps the preconditioned conjugate gradient method makes until a given tolerance is bounded by the number of nonzero entries per row, the largest diagonal entry and how well the coarse vectors approximate every error (for the agglomeration set-up: the ratio of the diagonal of the agglomerate matrices to the eigenvalues left out), not by the number of unknowns or of levels; it grows only with the square root of that ratio.", "quantifier": "all symmetric positive definite matrices with the given bounds, all agglomerations whose eigenvectors were computed correctly, any number of unknowns and levels, all right-hand sides, starting vectors and tolerances", "why_tests_cant": "A test measures the iteration count for a few meshes; that it stays bounded under refinement concerns infinitely many sizes.", "anchors": ["tests/hierarchy_driver.cc: matrix_based_two_grids", "include/mfmg/common/hierarchy.hpp: Hierarchy::Hierarchy, Hierarchy::apply", "include/mfmg/common/amge.templates.hpp: AMGe::compute_restriction_sparse_matrix"]}
{"id": "C94", "title": "The rate of convergence on several processes", "statement": "With symmetric Gauss-Seidel smoothing, which every process applies to its own rows only, one cycle reduces the energy of every error by a factor that depends on the number of entries per row, on how well the coarse vectors approximate errors and on how strongly the processes are coupled, but not on the number of processes, unknowns or levels; the same holds for the number of steps of the conjugate gradient method preconditioned with it. A smoothing step decreases the energy of every error exactly if the energy of every vector is less than twice its energy on the processes.", "quantifier": "all symmetric positive definite matrices, all distributions of the rows to any number of processes, any number of unknowns and levels, all right-hand sides and starting vectors", "why_tests_cant": "A test runs a few meshes on a few processes; that the rate stays bounded with a growing number of processes concerns infinitely many distributions, and it fails if every process is left with one row.", "anchors": ["include/mfmg/dealii/dealii_smoother.hpp: DealIISmoother", "source/dealii/dealii_smoother.cc: DealIISmoother::DealIISmoother, DealIISmoother::apply", "include/mfmg/common/hierarchy.hpp: Hierarchy::apply", "tests/hierarchy_driver.cc: matrix_based_two_grids"]}
{"id": "C95", "title": "Errors of the device are reported", "statement": "A function that uses the device returns a result only if all its calls of CUDA, cuSPARSE, cuSOLVER and AMGX succeeded, and then the right one; if a call fails, the program ends with a message. Handles of the libraries are neither leaked nor destroyed twice, whatever fails.", "quantifier": "all patterns of failing calls (failures of single calls, kernels that are refused, kernels that break the device), all matrices, vectors, distributions and schedules of threads, debug and release builds", "why_tests_cant": "A test does not make the device fail; which of the calls of a solve fails, and what the memory contains then, cannot be chosen from outside, and there are infinitely many combinations.", "anchors": ["include/mfmg/common/exceptions.hpp: ASSERT_CUDA, ASSERT_CUSPARSE, ASSERT_CUSOLVER", "source/cuda/dealii_operator_device_helpers.cu: cholesky_factorization, lu_factorization", "source/cuda/cuda_solver.cu: CudaSolver, amgx_solve", "source/cuda/cuda_handle.cu: CudaHandle", "source/cuda/cuda_smoother.cu: CudaSmoother", "include/mfmg/cuda/sparse_matrix_device.templates.cuh: SparseMatrixDevice::vmult", "include/mfmg/cuda/amge_device.templates.cuh: compute_local_eigenvectors"]}
{"id": "C96", "title": "What the driver program runs", "statement": "The program hierarchy_driver runs the problem asked for with the parameters of its input file (those in the section hidden if ML is asked for), or reports an error.", "quantifier": "all input files, all options on the command line, all outcomes of number conversions, debug and release builds", "why_tests_cant": "The input file is an arbitrary tree and the entries interact (sections replaced, entries set by the program, defaults); the tests contain one file.", "anchors": ["tests/hierarchy_driver.cc: main", "tests/hierarchy_driver.cc: matrix_free_two_grids, matrix_based_two_grids", "tests/test_hierarchy_helpers.hpp: MaterialPropertyFactory::create_material_property"]}
{"id": "C97", "title": "Device operators and hierarchies used by several threads", "statement": "Member functions that are const, such as applying an operator or a hierarchy, may be called by several threads at the same time; each thread gets the results it would get alone. On the device this holds exactly if no two threads apply the transpose of an operator for the first time.", "quantifier": "all numbers of threads, all sequences of calls of each thread, all orders of their steps, debug and release builds", "why_tests_cant": "A data race depends on the order of the steps; a test sees a few orders, and the window in which the transposed matrix is made is entered once in the life of an operator.", "anchors": ["source/cuda/cuda_matrix_operator.cu: CudaMatrixOperator::apply, transpose", "include/mfmg/common/hierarchy.hpp: Hierarchy::vmult, apply", "include/mfmg/cuda/cuda_matrix_operator.cuh: _matrix, _transposed_matrix (mutable)"]}
{"id": "C98", "title": "Eigenvectors computed only up to a tolerance", "statement": "The convergence of the two-level cycle does not depend on the local eigenvectors being exact: if they are computed up to a tolerance, the rate is still bounded independently of the size of the problem, with the omitted eigenvalues reduced by the square of the tolerance divided by the smallest eigenvalue of the vectors computed inexactly. A tolerance that does not depend on that eigenvalue is not enough.", "quantifier": "all tolerances, all symmetric positive semidefinite agglomerate matrices, all numbers of agglomerates, all right-hand sides and initial guesses", "why_tests_cant": "Tests compare iteration counts for a few sizes and one tolerance; the slow error only shows for small eigenvalues, and the code never asks the Lanczos solver for less than 1e-4.", "anchors": ["include/mfmg/dealii/amge_host.templates.hpp: compute_local_eigenvectors (std::max(tolerance, 1e-4))", "include/mfmg/common/lanczos.templates.hpp: Lanczos::solve", "include/mfmg/common/amge.templates.hpp: AMGe::compute_restriction_sparse_matrix", "include/mfmg/common/hierarchy.hpp: Hierarchy::vmult"]}
{"id": "C99", "title": "Nothing is left behind when set-up fails with an exception", "statement": "If setting up a hierarchy, constructing a smoother or coarse solver, or applying or multiplying operators ends with an exception (from the user's evaluator, from a memory allocation, from a check), everything acquired by the call has been given back, nothing is given back twice, and what was in use before is untouched, so that a program that catches the exception can try again any number of times.", "quantifier": "all points at which a call can throw, all numbers of agglomerates and eigenvectors, all orders of evaluation of function arguments, all sequences of failing and succeeding attempts", "why_tests_cant": "Tests never make a call throw in the middle of set-up; the memory lost only shows after many attempts, and which arrays are lost depends on the order of evaluation chosen by the compiler.", "anchors": ["include/mfmg/cuda/amge_device.templates.cuh: AMGe_device::setup_restrictor, compute_local_eigenvectors", "source/cuda/utils.cu: convert_matrix, csr_to_amgx", "source/cuda/cuda_smoother.cu: CudaSmoother::CudaSmoother", "source/cuda/cuda_solver.cu: CudaSolver::CudaSolver", "include/mfmg/cuda/sparse_matrix_device.templates.cuh: SparseMatrixDevice::vmult, mmult, operator=", "source/dealii/dealii_hierarchy_helpers.cc: build_restrictor (delete ap)"]}
{"id": "C100", "title": "The Lanczos solver finds the smallest eigenpair in a number of iterations that does not depend on the size", "statement": "When one eigenpair is requested, the Lanczos solver returns a unit vector and a value that approximate the smallest eigenvalue of the operator: the error of the value is bounded by a power of (1 - sqrt(gap)) / (1 + sqrt(gap)), gap being the distance of the smallest eigenvalue from the others relative to the spectrum, so that the number of iterations needed for a tolerance depends on the gap and on the start vector but not on the dimension; when the tolerance is met the value is the smallest eigenvalue up to the square of the tolerance, not one of the others.", "quantifier": "all symmetric operators on all spaces, all start vectors, tolerances, iteration limits and percentages between tests", "why_tests_cant": "A test compares the computed values for one matrix and one start vector; how the error depends on the gap, the start vector and the size, and whether the smallest eigenvalue can be missed, needs all of them.", "anchors": ["include/mfmg/common/lanczos.templates.hpp: Lanczos::solve, details_solve_lanczos, details_calc_tridiag_epairs, details_check_convergence", "include/mfmg/dealii/amge_host.templates.hpp: lanczos_compute_eigenvalues_and_eigenvectors"]}
{"id": "C101", "title": "The start vector of the local eigenproblems is not orthogonal to the wanted eigenvector", "statement": "When the Lanczos eigensolver is used for the local eigenproblems, the start vector that the library makes (random numbers on the free dofs, zero on the constrained ones) has a component in the eigenvector for the smallest eigenvalue of the agglomerate matrix on the free dofs, so that the call finds that eigenvalue: given enough iterations a call that returns has met the tolerance and its value exceeds the smallest eigenvalue by as little as wanted. The diagonal shift applied before the call changes neither the eigenvectors nor this conclusion.", "quantifier": "all sizes of agglomerates, all sets of constrained dofs, all symmetric matrices (entries off the diagonal not positive for the first part), all positive random numbers, all options", "why_tests_cant": "Tests run a few meshes; orthogonality is an exact condition that no sampled mesh shows, and whether the smallest eigenvalue can be missed needs all matrices.", "anchors": ["include/mfmg/dealii/amge_host.templates.hpp: lanczos_compute_eigenvalues_and_eigenvectors, AMGe_host::compute_local_eigenvectors", "source/dealii/dealii_mesh_evaluator.cc: DealIIMeshEvaluator::set_initial_guess", "include/mfmg/common/lanczos.templates.hpp: details_set_initial_guess, Lanczos::solve"]}
{"id": "C102", "title": "The Lanczos eigensolver runs to its end", "statement": "The Lanczos eigensolver returns for every symmetric operator and start vector with valid parameters: when the iteration has made all the vectors that the start vector can give, the convergence test ends it before the zero norm left by the last step is divided by. In particular this holds for the local eigenproblems of the library with its default options.", "quantifier": "all symmetric operators, all start vectors (zero and eigenvectors included), all numbers of requested pairs, tolerances, limits of iterations, percentages of the test schedule, sizes of agglomerates", "why_tests_cant": "The division happens only when the number of vectors the start vector can give falls between two tests of the schedule, or is below the number of requested pairs; a test uses one size and one matrix.", "anchors": ["include/mfmg/common/lanczos.templates.hpp: Lanczos::details_solve_lanczos, details_check_convergence", "include/mfmg/dealii/amge_host.templates.hpp: lanczos_compute_eigenvalues_and_eigenvectors"]}
{"id": "C103", "title": "The local eigenproblems give the smallest eigenvalues counted with multiplicity", "statement": "When several eigenvectors per agglomerate are requested, the Lanczos eigensolver returns the smallest eigenvalues counted with multiplicity, with independent eigenvectors for a multiple eigenvalue: for example both linear modes of a square agglomerate.", "quantifier": "all symmetric matrices of agglomerates and constrained dofs, all random start vectors, all numbers of requested eigenvectors, tolerances and limits of iterations, all computations of the small eigenproblems that are exact", "why_tests_cant": "Which eigenvectors are missed depends on multiplicities of the agglomerate matrix, which come from its geometry; the unit tests use matrices with simple eigenvalues and compare only with them.", "anchors": ["include/mfmg/common/lanczos.templates.hpp: Lanczos::solve, details_solve_lanczos, details_calc_tridiag_epairs", "include/mfmg/dealii/amge_host.templates.hpp: lanczos_compute_eigenvalues_and_eigenvectors"]}
{"id": "C104", "title": "AMGX coarse solvers do not disturb each other", "statement": "A program may have any number of coarse solvers of type amgx (or hierarchies with them) at the same time: constructing, applying and destroying one does not keep another from being applied and destroyed.", "quantifier": "all programs that construct, apply and destroy coarse solvers of any types, in any order, with any number of them alive at a time", "why_tests_cant": "Tests make one solver at a time; whether two of them get along depends on the interleaving of their constructions and destructions over the life of a program.", "anchors": ["source/cuda/cuda_solver.cu: CudaSolver::CudaSolver, CudaSolver::~CudaSolver, CudaSolver::apply"]}
{"id": "C105", "title": "AMGX coarse solvers work on any communicator", "statement": "The communication lists given to AMGX are right for a matrix that is distributed over any communicator, also if it is only a part of the processes of the program or orders them differently, and whatever matrices the other processes have.", "quantifier": "all worlds of processes, all communicators made of some of them in any order, all distributed matrices with symmetric patterns", "why_tests_cant": "The tests use MPI_COMM_WORLD throughout; the number of communicators and of matrices on them is unbounded.", "anchors": ["source/cuda/cuda_solver.cu: CudaSolver::CudaSolver (all_gather over MPI_COMM_WORLD, n_mpi_processes(comm))"]}
{"id": "C106", "title": "Deflation finds eigenvalues with their multiplicity", "statement": "With deflation the local eigensolver returns the smallest eigenvalues of the agglomerate counted with multiplicity, up to the tolerance, whatever the multiplicities are and however the eigenvectors are spread over the cycles.", "quantifier": "all symmetric matrices and sets of constrained dofs, all random numbers, numbers of eigenvectors, cycles and eigenvectors per cycle, tolerances and limits of iterations", "why_tests_cant": "The values depend on all cycles and on random start vectors; tests compare a few runs for a few matrices with a fixed number of cycles.", "anchors": ["include/mfmg/common/lanczos.templates.hpp: Lanczos::solve, details_solve_lanczos", "include/mfmg/common/lanczos_deflatedop.templates.hpp: DeflatedOperator", "include/mfmg/dealii/amge_host.templates.hpp: lanczos_compute_eigenvalues_and_eigenvectors"]}
{"id": "C107", "title": "The driver prints the convergence rate of the cycles", "statement": "With is preconditioner = false the program hierarchy_driver does 20 cycles and prints, as convergence rate, the factor by which the last cycle changes the norm of the residual; for cycles that converge it is a number below 1.", "quantifier": "all matrices, hierarchies, right-hand sides and start vectors", "why_tests_cant": "The number depends on the system, the hierarchy and a random start vector; a run shows one number and says nothing about the others.", "anchors": ["tests/hierarchy_driver.cc: matrix_based_two_grids, matrix_free_two_grids", "include/mfmg/common/hierarchy.hpp: Hierarchy::vmult"]}
{"id": "C108", "title": "The output files show the agglomerates", "statement": "After AMGe::output the file of every process has the cells the process owns, once each, with the rank of the process and the number of the agglomerate of the cell, and in all files together two cells carry the same pair of numbers exactly if they are in the same agglomerate.", "quantifier": "all meshes, distributions over processes and agglomerations", "why_tests_cant": "The numbers are stored in single precision; meshes in tests have a handful of agglomerates, for which every number is exact.", "anchors": ["include/mfmg/common/amge.templates.hpp: AMGe::output"]}
{"id": "C109", "title": "A hierarchy goes on solving the problem it was built for", "statement": "A program may change what its evaluator evaluates (a new coefficient in a nonlinear or time-dependent problem), build other hierarchies and apply any of them, in any order. A hierarchy it already holds keeps giving the answers it gave: vmult depends on the problem at the time of construction only, not on what happened since. If that is not so, at least its cycles solve the current problem.", "quantifier": "all problems, histories of changes, constructions and applications, all settings", "why_tests_cant": "Every test builds one hierarchy for one problem and never changes the problem afterwards.", "anchors": ["include/mfmg/common/hierarchy.hpp: Hierarchy::Hierarchy, Hierarchy::vmult", "source/dealii/dealii_matrix_free_operator.cc: DealIIMatrixFreeOperator::vmult", "source/dealii/dealii_matrix_free_smoother.cc: DealIIMatrixFreeSmoother", "source/dealii/dealii_hierarchy_helpers.cc: get_global_operator"]}
{"id": "C110", "title": "Prescribed boundary values come out right and do not influence the rest", "statement": "The row of a constrained dof (a Dirichlet boundary value) in the matrix holds only its diagonal entry. After every cycle the value of such a dof satisfies its equation, values that already satisfy it stay, and what a cycle gives for one set of unknowns does not depend on right-hand side or iterate of unknowns not coupled to it. The eigenvectors the library computes vanish on constrained dofs, so the rows of the restriction matrix do.", "quantifier": "all symmetric positive definite matrices, uncoupled sets and constrained dofs, restriction matrices, smoothers, processes, numbers of levels, settings, right-hand sides and iterates; all Lanczos runs and dstev results", "why_tests_cant": "Tests look at the error or the number of iterations of a solve, where a wrong boundary value or a coupling through the smoother is one contribution among many.", "anchors": ["include/mfmg/common/hierarchy.hpp: Hierarchy::apply", "source/dealii/dealii_smoother.cc: DealIISmoother::apply", "source/dealii/dealii_matrix_free_smoother.cc: DealIIMatrixFreeSmoother", "source/dealii/dealii_mesh_evaluator.cc: set_initial_guess", "include/mfmg/common/lanczos.templates.hpp: Lanczos::solve", "include/mfmg/dealii/amge_host.templates.hpp: compute_local_eigenvectors", "include/mfmg/common/amge.templates.hpp: compute_restriction_sparse_matrix"]}
{"id": "C111", "title": "Cycles converge with fast_ap although the eigenpairs are only computed up to a tolerance", "statement": "With fast_ap the library does not multiply the matrix by the prolongation but builds the product from the eigenvalues, which assumes exact eigenpairs. Eigensolvers stop at a tolerance: the product is then off by the residuals of the pairs, the coarse matrix is no longer symmetric, and standalone cycles must nevertheless decrease the error.", "quantifier": "all discretisations, agglomerates, eigenpairs with residuals within the tolerance, schedules of the assembly, numbers of smoothing steps, right-hand sides and iterates", "why_tests_cant": "Tests use one problem with well separated eigenvalues and the default tolerance, where the residuals are far below everything else.", "anchors": ["include/mfmg/common/amge.templates.hpp: compute_restriction_sparse_matrix", "source/dealii/dealii_hierarchy_helpers.cc: fast_multiply_transpose", "include/mfmg/dealii/amge_host.templates.hpp: setup_restrictor", "include/mfmg/common/hierarchy.hpp: Hierarchy"]}
{"id": "C112", "title": "The solver can be set up for problems without boundary conditions", "statement": "A problem without boundary conditions has a singular matrix: constants or rigid body motions are annihilated. Systems with such a matrix that have a solution are commonly solved with multigrid. Setting up the hierarchy must succeed for them, and cycles must decrease the error. The eigenvectors of each agglomerate contain exactly the annihilated vectors, so the coarse matrix is singular too, and the coarse solver decides.", "quantifier": "all meshes, partitions, numbers of processes, eigensolvers, smoothers, right-hand sides with a solution and iterates", "why_tests_cant": "Tests only use problems with Dirichlet conditions on the whole boundary, whose matrices are positive definite.", "anchors": ["source/dealii/dealii_solver.cc: DealIISolver", "source/dealii/dealii_hierarchy_helpers.cc: build_coarse_solver", "include/mfmg/common/hierarchy.hpp: Hierarchy", "include/mfmg/dealii/amge_host.templates.hpp: setup_restrictor"]}
{"id": "C113", "title": "Work and memory of an application are proportional to the problem and reported", "statement": "An application of the hierarchy uses, per level, a fixed number of products with the operator and the preconditioner that depends only on the number of smoothing steps, and at most a fixed number of vectors at any time. If the levels shrink by a factor and the matrices have a bounded number of entries per row, the work is bounded by a constant times the number of unknowns, whatever the number of levels, plus one coarse solve. The set-up produces such levels: with a bounded number of eigenvectors per agglomerate and cells per dof the coarse level has a bounded number of unknowns per agglomerate and the coarse matrix a bounded number of entries for each entry of the matrix. The complexities reported by the hierarchy are the sums of the unknowns and of the entries of all levels relative to the finest level.", "quantifier": "all hierarchies, numbers of levels and of smoothing steps, operators, meshes, agglomerations, numbers of processes and of eigenvectors, and moments of an application", "why_tests_cant": "Tests run on one or two levels and small meshes and never count operations; the reported complexities are printed but not compared.", "anchors": ["include/mfmg/common/hierarchy.hpp: Hierarchy::apply", "include/mfmg/common/hierarchy.hpp: Hierarchy::grid_complexity", "include/mfmg/common/hierarchy.hpp: Hierarchy::operator_complexity", "include/mfmg/common/amge.templates.hpp: compute_restriction_sparse_matrix"]}
{"id": "C114", "title": "More eigenvectors and more smoothing steps do not make the two-level method slower", "statement": "If the coarse space of a two-level hierarchy contains that of another one, every bound on the reduction of the energy of the error per application that holds with the smaller space holds with the larger one, and used as a preconditioner the result is closer to that of the exact inverse, on any number of processes. The same holds when smoothing steps are added. Set-up with more eigenvectors on every agglomerate produces such a larger coarse space. Every single application with the larger space leaves at most the error left with the smaller one.", "quantifier": "all symmetric positive definite operators, restriction matrices with independent rows whose spaces are nested, smoothers, numbers of processes and of smoothing steps, meshes, agglomerations, right-hand sides and starting vectors", "why_tests_cant": "Tests compare iteration counts of a few configurations with recorded values; they can neither show that no operator is slower with more eigenvectors nor find the operators for which it is.", "anchors": ["include/mfmg/common/hierarchy.hpp: Hierarchy::apply", "include/mfmg/common/amge.templates.hpp: compute_restriction_sparse_matrix", "source/dealii/dealii_smoother.cc: DealIISmoother", "include/mfmg/dealii/amge_host.templates.hpp: setup_restrictor"]}
{"id": "C115", "title": "Cycles converge although the coarse problem is not solved exactly", "statement": "With an iterative or approximate coarse solver, which may be nonlinear, the result of an application differs from that with an exact coarse solver at most by the accuracy of the coarse solver times the initial error in the energy norm, whatever the number of levels; so a rate of convergence grows at most by this accuracy. A coarse solver that does not increase the energy of the error does not make a cycle increase it, and with at least one smoothing step every cycle decreases the error. The accuracy may be that of the residual, which is what iterative coarse solvers control.", "quantifier": "all symmetric positive definite operators, numbers of levels, restriction matrices with independent rows, coarse solvers, numbers of smoothing steps, right-hand sides and starting vectors, in standalone and preconditioner mode", "why_tests_cant": "Tests use one coarse matrix with a direct solver, or compare iteration counts with AMGX for a few tolerances; they cannot bound the effect of an inexact solve for all problems.", "anchors": ["include/mfmg/common/hierarchy.hpp: Hierarchy::apply", "source/dealii/dealii_solver.cc: DealIISolver::apply", "source/cuda/cuda_solver.cu: CudaSolver::apply"]}
{"id": "C116", "title": "A change of the problem in part of the mesh changes only the nearby part of the coarse problem", "statement": "If the problem changes on some cells of the mesh and the solver is set up again, the agglomerates are the same, and the restriction matrix changes only in rows of agglomerates that contain a changed cell and in columns of dofs of changed cells; entries of the coarse matrix between agglomerates without changed cells and without dofs of changed cells stay the same. The coarse matrix couples two agglomerates only if some cell has dofs of both. False with the eigensolver anasazi and use_initial_guess: the vectors of one agglomerate are the start vectors of the next one.", "quantifier": "all meshes, numbers of processes, partitioners, local eigensolvers, thread schedules (which may differ between the two set-ups), sets of changed cells and changes", "why_tests_cant": "Tests set up single problems; they do not compare set-ups of problems that differ in part of the mesh, and could do so only for a few changes.", "anchors": ["include/mfmg/dealii/amge_host.templates.hpp: AMGe_host::setup_restrictor, local_worker", "include/mfmg/common/amge.templates.hpp: compute_restriction_sparse_matrix", "source/dealii/dealii_hierarchy_helpers.cc: build_restrictor"]}
{"id": "C117", "title": "Large problems: row numbers and row pointers are those of unbounded arithmetic as long as they fit", "statement": "The restriction matrix has one row for each eigenvector, numbered process by process, and the arrays of matrices converted to the device hold the matrix, whenever the numbers fit in the integer types used: 32 bits for the rows of one process, the width of the global index type for all rows, and less than 2^31 entries and columns for device matrices. Offsets that are summed in signed integers are right beyond the range of these integers, and columns survive the way to the device and back if they fit in unsigned integers. Beyond these limits errors are not reported: two processes get the same row number, rows are missing, the conversion of Trilinos matrices is undefined, and that of deal.II matrices gives negative row pointers.", "quantifier": "all numbers of processes, of eigenvectors of each process, widths of the global index type, matrices and column numbers", "why_tests_cant": "The limits are beyond 2^31 rows or entries, which no test can allocate; tests run with at most thousands of rows.", "anchors": ["include/mfmg/common/amge.templates.hpp: AMGe::compute_restriction_sparsity_pattern", "include/mfmg/common/utils.hpp: check_restriction_matrix", "source/cuda/utils.cu: convert_matrix, convert_to_trilinos_matrix"]}
{"id": "C118", "title": "The work of the set-up is proportional to the number of cells", "statement": "With agglomerates of bounded size the set-up takes a number of steps proportional to the number of cells: agglomerates are formed in a number of steps proportional to the number of cells, and the local problems have, all together, each owned cell once. False for finding the cells of the agglomerates: all cells are looked at for every agglomerate, with fast_ap cells are found by stepping from the first cell for every agglomerate, and in debug builds the check of the restriction matrix sums over all earlier agglomerates for every agglomerate; all three grow with the square of the number of cells.", "quantifier": "all meshes, block sizes, agglomerations, orders in which the agglomerates are taken by threads, and numbers of cells", "why_tests_cant": "Growth with the number of cells cannot be seen in tests of a few small meshes, where the quadratic part is hidden by the eigensolvers.", "anchors": ["include/mfmg/common/amge.templates.hpp: AMGe::build_agglomerate_triangulation, AMGe::build_agglomerates_block", "include/mfmg/dealii/amge_host.templates.hpp: AMGe_host::setup_restrictor, local_worker", "source/dealii/dealii_hierarchy_helpers.cc: build_restrictor", "include/mfmg/common/utils.hpp: check_restriction_matrix"]}
{"id": "C119", "title": "Conjugate gradients preconditioned by the hierarchy solve every system with any coarse solver", "statement": "For every symmetric positive definite system, the conjugate gradient method preconditioned by the hierarchy finds the solution in at most as many steps as there are unknowns, whatever the coarse solver is. Proved for coarse solvers that are linear, symmetric and do not point away from the right-hand side, without any accuracy (even for one that does nothing); a coarse solver within a factor c of an exact one makes the condition number at most c times larger. False for coarse solvers that are not symmetric, such as one Gauss-Seidel sweep: for every start and tolerance there is a system for which the method gives up.", "quantifier": "all symmetric positive definite matrices, restriction matrices of full rank, numbers of levels, smoothing steps and processes, right-hand sides, starts, tolerances and coarse solvers", "why_tests_cant": "The tests use one kind of coarse solver for a few systems; that the number of steps stays finite needs conjugacy of all directions for every system.", "anchors": ["source/dealii/dealii_solver.cc: DealIISolver::apply", "source/dealii/dealii_hierarchy_helpers.cc: build_coarse_solver", "include/mfmg/common/hierarchy.hpp: Hierarchy::apply, Hierarchy::vmult", "tests/hierarchy_driver.cc: matrix_based_two_grids"]}
{"id": "C120", "title": "Systems that are positive but not symmetric", "statement": "For every matrix A with v.Av > 0 for all v other than zero, symmetric or not, and restriction matrices of full rank, the hierarchy can be built, every coarse problem has exactly one solution, the solution of the system is left unchanged by an application, and repeated applications converge to it. All but the last is proved; the coarse correction makes the residual vanish on the coarse space and is optimal up to the skewness of the matrix, and two-level cycles converge if the smoother outweighs the skewness. Convergence in general is false: for every k with k*k > 1 there is a 2 by 2 matrix for which each cycle with (symmetric) Gauss-Seidel smoothing multiplies the error by a power of k*k.", "quantifier": "all positive matrices, restriction matrices of full rank, numbers of levels, smoothing steps and processes, starts and right-hand sides", "why_tests_cant": "The tests use symmetric matrices only; what happens for convection needs a statement about every matrix.", "anchors": ["include/mfmg/common/hierarchy.hpp: Hierarchy::Hierarchy, Hierarchy::apply, Hierarchy::vmult", "source/dealii/dealii_smoother.cc: DealIISmoother::apply", "source/dealii/dealii_solver.cc: DealIISolver::apply", "source/dealii/dealii_trilinos_matrix_operator.cc: multiply_transpose, multiply"]}
{"id": "C121", "title": "Which basis of the eigenvectors is returned", "statement": "Eigenvectors are determined up to sign and length, and those of a multiple eigenvalue up to the choice of a basis; what the eigensolver returns may depend on the machine. If on every agglomerate the vectors span the same space, the set-up succeeds with the same agglomerates and a restriction matrix with the same coarse space, and every application of the hierarchy gives the same result. Proved for two levels and any change of the basis, and for any number of levels and all four smoothers if signs and lengths change (also those of the fine unknowns). With three levels and other changes it is false: the smoother of the middle level depends on the basis.", "quantifier": "all meshes, processes, agglomerations, bases, symmetric positive definite matrices, restriction matrices of full rank, numbers of smoothing steps, starts and right-hand sides", "why_tests_cant": "A test sees the one basis that the eigensolver returns on one machine; independence needs all of them.", "anchors": ["include/mfmg/common/amge.templates.hpp: AMGe::compute_restriction_sparse_matrix", "include/mfmg/dealii/amge_host.templates.hpp: AMGe_host::compute_local_eigenvectors, setup_restrictor", "include/mfmg/common/hierarchy.hpp: Hierarchy::apply, Hierarchy::vmult", "source/dealii/dealii_smoother.cc: DealIISmoother::apply"]}
{"id": "C122", "title": "Parts of the problem that are not coupled", "statement": "If a part of the unknowns (one of several separate bodies, say) is coupled to the rest neither by the matrix nor by the vectors of the coarse spaces, the result of every application in this part is determined by the matrix, the start and the right-hand side in the part, whatever the rest of the problem is; for all four smoothers, any number of levels and processes. It would be enough that the matrix does not couple the parts if the set-up kept them apart; but it does not: if an agglomerate extends over two parts, a correct eigensolver may return an eigenvector that is nonzero in both, and then a right-hand side in one part changes the result in the other.", "quantifier": "all symmetric positive definite matrices that agree in the part, restriction matrices of full rank, numbers of levels, smoothing steps and processes, starts and right-hand sides", "why_tests_cant": "Tests use one connected mesh; independence of everything outside a part ranges over all such problems.", "anchors": ["include/mfmg/common/hierarchy.hpp: Hierarchy::Hierarchy, Hierarchy::apply, Hierarchy::vmult", "source/dealii/dealii_smoother.cc: DealIISmoother::apply", "source/dealii/dealii_solver.cc: DealIISolver::apply", "include/mfmg/common/amge.templates.hpp: AMGe::build_agglomerates"]}
{"id": "C123", "title": "What the first cycles tell about the following ones", "statement": "Repeated standalone cycles approach the solution from one side: errors and corrections never change direction (their energy products are never negative), the factor by which a cycle reduces the error never gets better from one cycle to the next (a rate measured early is optimistic, and the same can be observed in the corrections, which are computable), and from the first guess zero the energy of the iterates grows with every cycle. If the smoother converges, a correction is never larger than the error it corrects, and energy and work b.x of the iterates stay below those of the solution. True with symmetric Gauss-Seidel and Jacobi smoothing; false with Gauss-Seidel in one direction, where cycles can overshoot and rates improve.", "quantifier": "all symmetric positive definite matrices, restriction matrices of full rank, numbers of levels (at least two), smoothing steps and processes, right-hand sides, first guesses and numbers of cycles", "why_tests_cant": "Tests measure the rate of a few problems; that rates of all problems are sorted is not visible in any of them.", "anchors": ["include/mfmg/common/hierarchy.hpp: Hierarchy::Hierarchy, Hierarchy::apply, Hierarchy::vmult", "source/dealii/dealii_smoother.cc: DealIISmoother::apply", "source/dealii/dealii_solver.cc: DealIISolver::apply", "tests/hierarchy_driver.cc"]}
{"id": "C124", "title": "Matrices and vectors written to files", "statement": "When matrix_market_output_file returns, the file contains the matrix or the vector. True in debug builds, and whenever the writer succeeds, for Trilinos matrices and vectors; for deal.II matrices if in addition every entry that is not zero exceeds 1e-13 in absolute value. False in release builds, where a failed write is not reported, and for deal.II matrices with small entries: they are written as zeros, so every matrix, in large enough units, is written as the zero matrix.", "quantifier": "all matrices (any numbers of rows and entries, distinct columns in a row) and vectors, all writers that return zero only on success, both build modes", "why_tests_cant": "The functions are not called in any test; failing disks and small entries do not occur in tests, which run in one build mode.", "anchors": ["source/dealii/dealii_utils.cc: matrix_market_output_file", "include/mfmg/dealii/dealii_utils.hpp: matrix_market_output_file", "include/mfmg/common/exceptions.hpp: ASSERT"]}
{"id": "C125", "title": "Estimating the error from what is computed", "statement": "The error of an iterate can be bounded by quantities that are known without the solution. What a standalone cycle gains, its correction times the sum of the residuals before and after it, is positive unless the iterate is the solution, and the gains of any number of cycles never exceed the energy of the error they start from. If the restriction matrices approximate, the gains of k cycles are the energy of the error up to the k-th power of a rate that depends neither on the number of unknowns nor of levels. Without a rate, the next two corrections bound the error from below, with symmetric Gauss-Seidel and Jacobi smoothing. False with Gauss-Seidel in one direction. No factor bounds the error from above by the correction: a small correction does not mean a small error.", "quantifier": "all symmetric positive definite matrices, restriction matrices with independent rows, right-hand sides, first guesses, numbers of levels and cycles, exact coarse solvers", "why_tests_cant": "Tests stop after a number of cycles or at a tolerance, and know the solution of few problems; the bounds concern every sequence of iterates.", "anchors": ["include/mfmg/common/hierarchy.hpp: Hierarchy::vmult, Hierarchy::apply", "source/dealii/dealii_smoother.cc: DealIISmoother", "tests/hierarchy_driver.cc: main_"]}
{"id": "C126", "title": "Bounds of the coarse matrices", "statement": "The coarse matrices are bounded as the matrix is. From above this is true: prolongation (the product with the transpose of the restriction matrix) makes no vector longer, so a bound of the largest eigenvalue of the matrix bounds the eigenvalues of the coarse matrices of all levels. From below it is true up to a factor if the combinations of the eigenvectors of every agglomerate keep a share of their length on the dofs that belong to no other agglomerate; the factor is this share, once for each level. Without this it is false: already for the identity, divided between two agglomerates, the smallest eigenvalue of the coarse matrix can be as small as one likes although the local eigenvectors are orthonormal, so the condition number of the coarse problem is not bounded.", "quantifier": "all set-ups on any number of processes with orthonormal local eigenvectors and nonnegative local diagonals that add up to the positive global diagonal, all matrices, any number of levels", "why_tests_cant": "Tests look at a few meshes; how long prolonged vectors can be is a statement about all coarse vectors and all divisions into agglomerates.", "anchors": ["include/mfmg/common/amge.templates.hpp: AMGe::compute_restriction_sparse_matrix", "source/dealii/dealii_hierarchy_helpers.cc: DealIIHierarchyHelpers::build_restrictor"]}
{"id": "C127", "title": "What the tolerance of the solver guarantees", "statement": "If the conjugate gradient method, as called by the distributed driver program, returns, the error is small: the energy of the error times a lower bound of the eigenvalues of the matrix, and the square of its length times the square of this bound, are at most the square of solver.tolerance. Relative to the solution this is false, because the tolerance is absolute: whatever the hierarchy, the matrix, the right-hand side and the start vector, in small enough units the program returns the start vector after no step and without an error, although the solution is the same in all units.", "quantifier": "all symmetric positive definite matrices with the hypotheses of C92, all right-hand sides, start vectors, tolerances and contents of uninitialised vectors; the negation for all matrices and hierarchies", "why_tests_cant": "Tests use problems in one kind of units, in which the residual of the start vector is far above the tolerance.", "anchors": ["tests/hierarchy_driver.cc: matrix_based_two_grids, matrix_free_two_grids"]}

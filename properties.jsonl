{"id": "C01", "title": "Matrix multiply is correct for every size, tile size and task schedule", "statement": "After plasma_zgemm(transA,transB,m,n,k,alpha,A,lda,B,ldb,beta,C,ldc) with legal arguments returns, every C[i+j*ldc] with i<m, j<n equals alpha*sum_l op(A)(i,l)*op(B)(l,j) + beta*C_old[i+j*ldc], whatever order the OpenMP runtime executes the tasks in, provided that order respects the depend clauses.", "quantifier": "all m,n,k >= 0, all leading dimensions, all tile sizes nb >= 1, the nine transpose combinations, all alpha/beta, all matrix contents (exact arithmetic), all dependency-respecting schedules", "why_tests_cant": "The number of legal task orders grows factorially with the tile count and the runtime picks one; a test observes one order per run on one machine. Edge tiles, empty dimensions and tile/size remainders interact; tests sample a handful of (m,n,k,nb) combinations.", "anchors": ["compute/zgemm.c:plasma_zgemm", "compute/pzgemm.c:plasma_pzgemm", "core_blas/core_zgemm.c:plasma_core_omp_zgemm", "compute/pzge2desc.c", "compute/pzdesc2ge.c"]}
{"id": "C02", "title": "Matrix multiply touches nothing but the m-by-n part of C", "statement": "plasma_zgemm leaves A, B, and every element of the C buffer outside the m-by-n leading part (padding rows between m and ldc, anything past the last column) exactly as they were.", "quantifier": "all sizes, leading dimensions, tile sizes, schedules, all addresses of the user's buffers", "why_tests_cant": "A stray write into padding is only seen by a test that compares the whole padded buffer for that particular shape and schedule.", "anchors": ["compute/zgemm.c:plasma_zgemm", "compute/pzdesc2ge.c:plasma_pzdesc2ge"]}
{"id": "C03", "title": "Tile layout: tiles never overlap and never leave the allocation", "statement": "For a matrix created by plasma_desc_general_create, the memory ranges addressed through distinct tiles of the descriptor are disjoint, every element of every tile lies inside the allocated buffer, and every allocated element belongs to exactly one tile.", "quantifier": "all matrix sizes and all tile sizes mb,nb >= 1, all tile indices and in-tile indices", "why_tests_cant": "Overlap or overrun shows up only for particular remainders lm%mb, ln%nb, and then only as silent corruption.", "anchors": ["control/descriptor.c:plasma_desc_general_create", "control/descriptor.c:plasma_desc_general_init", "include/plasma_descriptor.h:plasma_tile_addr_general", "include/plasma_descriptor.h:plasma_tile_mmain", "include/plasma_descriptor.h:plasma_tile_mview"]}
{"id": "C04", "title": "Layout conversion round-trips", "statement": "Converting a column-major matrix to tile layout and back (plasma_omp_zge2desc then plasma_omp_zdesc2ge) reproduces the m-by-n matrix exactly at the destination, and changes nothing else of the destination buffer, for any source and destination leading dimensions and under any schedule of the copy tasks.", "quantifier": "all m,n,lda,ldb,nb, all contents, all schedules", "why_tests_cant": "Edge tiles, empty dimensions and tile/size remainders interact; tests sample a handful of (m,n,k,nb) combinations.", "anchors": ["compute/pzge2desc.c:plasma_pzge2desc", "compute/pzdesc2ge.c:plasma_pzdesc2ge", "core_blas/core_zlacpy.c:plasma_core_zlacpy"]}
{"id": "C05", "title": "Descriptors produced by the create calls pass the validity check", "statement": "Whenever plasma_desc_general_create (and the triangular and band variants used by the drivers) is called with positive tile sizes and non-negative consistent dimensions, the descriptor it fills in is accepted by plasma_desc_check, and its tile counts are the ceilings of dimension over tile size.", "quantifier": "all dimensions, offsets aligned to tiles, tile sizes, precisions", "why_tests_cant": "The check is a long conjunction of inequalities; tests exercise a few shapes.", "anchors": ["control/descriptor.c:plasma_desc_general_init", "control/descriptor.c:plasma_desc_general_check", "control/descriptor.c:plasma_desc_general_band_init", "control/descriptor.c:plasma_desc_general_band_check"]}
{"id": "C06", "title": "A zero tile size is rejected rather than crashing", "statement": "Calling the descriptor create function with mb=0 or nb=0 returns PlasmaErrorIllegalValue, as its documentation and its 'negative tile dimension' check promise.", "quantifier": "all argument tuples with mb<=0 or nb<=0", "why_tests_cant": "Reaching the division before the check depends on which argument is zero; sanitizer-free tests of the error path do not pass zero.", "anchors": ["control/descriptor.c:plasma_desc_general_create", "control/descriptor.c:plasma_desc_general_init", "control/descriptor.c:plasma_desc_general_check"]}
{"id": "C07", "title": "Submatrix views address the parent's elements", "statement": "A tile-aligned view made by plasma_desc_view(A,i,j,m,n) addresses, for every tile and in-tile index, exactly the element (i+row, j+col) of the parent matrix, and views of views compose by adding offsets.", "quantifier": "all parents, aligned offsets, view sizes within the parent, all element indices", "why_tests_cant": "Only some offsets cross the boundary between full and remainder tile storage.", "anchors": ["include/plasma_descriptor.h:plasma_desc_view", "include/plasma_descriptor.h:plasma_tile_addr_general"]}
{"id": "C08", "title": "Results do not depend on the task schedule", "statement": "For each tile routine whose tasks declare exactly the tiles they touch, every execution of its tasks that respects the depend clauses, including executions in which the bodies of independent tasks interleave instruction by instruction, ends in the same memory contents as running the tasks one after the other in creation order.", "quantifier": "all tile counts, all memory contents, all interleavings consistent with depend order", "why_tests_cant": "The number of legal task orders grows factorially with the tile count and the runtime picks one; a test observes one order per run on one machine.", "anchors": ["core_blas/core_zgemm.c:plasma_core_omp_zgemm", "core_blas/core_ztrsm.c:plasma_core_omp_ztrsm", "core_blas/core_zpotrf.c:plasma_core_omp_zpotrf", "core_blas/core_zherk.c:plasma_core_omp_zherk"]}
{"id": "C09", "title": "Rank-k updates: syrk and herk", "statement": "plasma_zsyrk/plasma_zherk set the selected triangle of C to alpha*op(A)*op(A)^T (resp. ^H) + beta*C and leave the other strict triangle, A and padding untouched.", "quantifier": "all n,k,nb, uplo, trans, alpha, beta, contents, schedules", "why_tests_cant": "Edge tiles, empty dimensions and tile/size remainders interact; tests sample a handful of (m,n,k,nb) combinations. The number of legal task orders grows factorially with the tile count and the runtime picks one; a test observes one order per run on one machine.", "anchors": ["compute/pzsyrk.c:plasma_pzsyrk", "compute/pzherk.c:plasma_pzherk", "compute/zsyrk.c", "compute/zherk.c"]}
{"id": "C10", "title": "Rank-2k updates: syr2k and her2k", "statement": "plasma_zsyr2k/plasma_zher2k set the selected triangle of C to alpha*op(A)op(B)^T+alpha*op(B)op(A)^T+beta*C (conjugated variant: alpha and conj(alpha)) and leave the other strict triangle untouched.", "quantifier": "all n,k,nb, uplo, trans, alpha, beta, contents, schedules", "why_tests_cant": "Edge tiles, empty dimensions and tile/size remainders interact; tests sample a handful of (m,n,k,nb) combinations. The number of legal task orders grows factorially with the tile count and the runtime picks one; a test observes one order per run on one machine.", "anchors": ["compute/pzsyr2k.c:plasma_pzsyr2k", "compute/pzher2k.c:plasma_pzher2k"]}
{"id": "C11", "title": "Symmetric and Hermitian multiply", "statement": "plasma_zsymm/plasma_zhemm compute C = alpha*A*B+beta*C or alpha*B*A+beta*C where A is the symmetric (Hermitian) matrix whose selected triangle is supplied; the other triangle of A never influences the result.", "quantifier": "all m,n,nb, side, uplo, contents of both triangles, schedules", "why_tests_cant": "Edge tiles, empty dimensions and tile/size remainders interact; tests sample a handful of (m,n,k,nb) combinations. Dependence on the unreferenced triangle needs two runs that differ only there.", "anchors": ["compute/pzsymm.c:plasma_pzsymm", "compute/pzhemm.c:plasma_pzhemm"]}
{"id": "C12", "title": "Triangular solve returns the solution", "statement": "For non-zero alpha and (for NonUnit) a triangular A with invertible diagonal, plasma_ztrsm overwrites B with the X satisfying op(A)*X = alpha*B (side Left) or X*op(A) = alpha*B (side Right), reading only the selected triangle of A.", "quantifier": "all m,n,nb, side, uplo, trans, diag, alpha<>0, contents, schedules", "why_tests_cant": "Edge tiles, empty dimensions and tile/size remainders interact; tests sample a handful of (m,n,k,nb) combinations. The number of legal task orders grows factorially with the tile count and the runtime picks one; a test observes one order per run on one machine.", "anchors": ["compute/pztrsm.c:plasma_pztrsm", "compute/ztrsm.c:plasma_ztrsm", "core_blas/core_ztrsm.c"]}
{"id": "C13", "title": "Triangular solve with alpha = 0 gives zero", "statement": "plasma_ztrsm with alpha = 0 sets B to zero for every side/uplo/trans, as the BLAS it mirrors does, without dividing by alpha.", "quantifier": "all side/uplo/trans/diag combinations, all sizes", "why_tests_cant": "Only two of the eight loop nests divide by alpha, and only when there is more than one tile column.", "anchors": ["compute/pztrsm.c:plasma_pztrsm"]}
{"id": "C14", "title": "Triangular multiply", "statement": "plasma_ztrmm overwrites B with alpha*op(A)*B or alpha*B*op(A), where only the selected triangle of A (and for Unit not its diagonal) is read, even though B is updated in place tile by tile.", "quantifier": "all m,n,nb, side, uplo, trans, diag, alpha, contents, schedules", "why_tests_cant": "Edge tiles, empty dimensions and tile/size remainders interact; tests sample a handful of (m,n,k,nb) combinations. In-place update order errors only show with three or more tile rows.", "anchors": ["compute/pztrmm.c:plasma_pztrmm", "compute/ztrmm.c"]}
{"id": "C15", "title": "Cholesky factorization is correct", "statement": "If plasma_zpotrf returns 0 then the selected triangle holds L (resp. U) with positive real diagonal and L*L^H (resp. U^H*U) equals the Hermitian matrix described by that triangle on entry; the other strict triangle is unchanged.", "quantifier": "all n,nb, uplo, all contents, all schedules", "why_tests_cant": "Edge tiles, empty dimensions and tile/size remainders interact; tests sample a handful of (m,n,k,nb) combinations. The number of legal task orders grows factorially with the tile count and the runtime picks one; a test observes one order per run on one machine.", "anchors": ["compute/pzpotrf.c:plasma_pzpotrf", "compute/zpotrf.c:plasma_zpotrf", "core_blas/core_zpotrf.c"]}
{"id": "C16", "title": "Cholesky failure index names the first bad leading minor", "statement": "If plasma_zpotrf returns a positive value i, the leading minor of order i of the input is not positive definite and all smaller ones are; if the matrix is positive definite it returns 0. The value is the same for every schedule.", "quantifier": "all n,nb, uplo, all contents, all schedules", "why_tests_cant": "Which task reports first depends on the schedule; a test sees one schedule.", "anchors": ["core_blas/core_zpotrf.c:plasma_core_omp_zpotrf", "compute/zpotrf.c:plasma_zpotrf", "control/async.c:plasma_request_fail"]}
{"id": "C17", "title": "Cholesky solve", "statement": "When plasma_zposv returns 0 (or plasma_zpotrf followed by plasma_zpotrs), the result X satisfies A*X = B for the Hermitian matrix A given by the selected triangle.", "quantifier": "all n,nrhs,nb, uplo, contents, schedules", "why_tests_cant": "Edge tiles, empty dimensions and tile/size remainders interact; tests sample a handful of (m,n,k,nb) combinations. The number of legal task orders grows factorially with the tile count and the runtime picks one; a test observes one order per run on one machine.", "anchors": ["compute/zposv.c:plasma_zposv", "compute/zpotrs.c:plasma_omp_zpotrs", "compute/pztrsm.c"]}
{"id": "C18", "title": "Triangular product L^H*L / U*U^H in place", "statement": "For a triangular factor with real diagonal (as Cholesky factors and their inverses have), plasma_zlauum overwrites the selected triangle with that triangle of U*U^H (Upper) or L^H*L (Lower); the other strict triangle is unchanged.", "quantifier": "all n,nb, uplo, contents, schedules", "why_tests_cant": "Edge tiles, empty dimensions and tile/size remainders interact; tests sample a handful of (m,n,k,nb) combinations. In-place order.", "anchors": ["compute/pzlauum.c:plasma_pzlauum", "core_blas/core_zlauum.c"]}
{"id": "C19", "title": "Triangular inverse", "statement": "If plasma_ztrtri returns 0 the selected triangle of A is overwritten by that of the inverse of the triangular matrix (unit or non-unit diagonal).", "quantifier": "all n,nb, uplo, diag, contents, schedules", "why_tests_cant": "Edge tiles, empty dimensions and tile/size remainders interact; tests sample a handful of (m,n,k,nb) combinations. The number of legal task orders grows factorially with the tile count and the runtime picks one; a test observes one order per run on one machine.", "anchors": ["compute/pztrtri.c:plasma_pztrtri", "core_blas/core_ztrtri.c"]}
{"id": "C20", "title": "Cholesky inverse", "statement": "plasma_zpotri after plasma_zpotrf (and plasma_zpoinv) overwrites the selected triangle with that triangle of the inverse of the original Hermitian matrix.", "quantifier": "all n,nb, uplo, contents, schedules", "why_tests_cant": "Edge tiles, empty dimensions and tile/size remainders interact; tests sample a handful of (m,n,k,nb) combinations.", "anchors": ["compute/zpotri.c:plasma_omp_zpotri", "compute/zpoinv.c:plasma_omp_zpoinv", "compute/pztrtri.c", "compute/pzlauum.c"]}
{"id": "C21", "title": "Row interchanges are invertible and only permute", "statement": "plasma_zgeswp with increment 1 applies the interchanges ipiv[k1..k2] in order, and with increment -1 in reverse order, so that one undoes the other; each call only permutes rows (columns), and only within the range of indices named by ipiv.", "quantifier": "all sizes, nb, ipiv contents in range, both orientations", "why_tests_cant": "The swap addresses are computed per tile; mistakes appear only when source and target row are in particular tiles.", "anchors": ["core_blas/core_zgeswp.c:plasma_core_zgeswp", "compute/pzgeswp.c:plasma_pzgeswp", "compute/zgeswp.c"]}
{"id": "C22", "title": "LU factorization is correct", "statement": "If plasma_zgetrf returns 0, then for the returned unit lower-triangular/trapezoidal L, upper-triangular/trapezoidal U and interchanges ipiv, P*A = L*U, where P is the product of the interchanges in order.", "quantifier": "all m,n,nb,ib, contents, pivot choices", "why_tests_cant": "Edge tiles, empty dimensions and tile/size remainders interact; tests sample a handful of (m,n,k,nb) combinations. Pivot rows from any tile can be swapped into any panel.", "anchors": ["compute/pzgetrf.c:plasma_pzgetrf", "core_blas/core_zgetrf.c:plasma_core_zgetrf", "core_blas/core_zgeswp.c"]}
{"id": "C23", "title": "LU factorization tasks are ordered with respect to layout conversion", "statement": "Inside plasma_zgetrf and plasma_zgesv every task that reads or writes a tile is ordered by the dependency graph after the task that fills that tile, under the dependence matching used by common OpenMP runtimes (list items match by starting address).", "quantifier": "all tile counts, all schedules", "why_tests_cant": "The unordered window is a few microseconds wide and needs at least four tile rows; tests pass on almost every run.", "anchors": ["compute/pzgetrf.c:plasma_pzgetrf", "compute/zgetrf.c:plasma_zgetrf", "compute/zgesv.c:plasma_zgesv"]}
{"id": "C24", "title": "LU solve", "statement": "plasma_zgesv, and plasma_zgetrf followed by plasma_zgetrs, return X with op(A)*X = B for op in NoTrans, Trans, ConjTrans.", "quantifier": "all n,nrhs,nb, trans, contents, pivot sequences", "why_tests_cant": "Edge tiles, empty dimensions and tile/size remainders interact; tests sample a handful of (m,n,k,nb) combinations.", "anchors": ["compute/zgesv.c:plasma_omp_zgesv", "compute/zgetrs.c:plasma_omp_zgetrs"]}
{"id": "C25", "title": "LU inverse", "statement": "plasma_zgetri after plasma_zgetrf overwrites A with its inverse.", "quantifier": "all n,nb, contents, pivot sequences", "why_tests_cant": "Edge tiles, empty dimensions and tile/size remainders interact; tests sample a handful of (m,n,k,nb) combinations.", "anchors": ["compute/zgetri.c:plasma_omp_zgetri", "compute/pzgetri_aux.c:plasma_pzgetri_aux", "compute/pztrtri.c", "compute/pzgeswp.c"]}
{"id": "C26", "title": "General matrix norms", "statement": "plasma_zlange returns the max, one, infinity and Frobenius norm of the m-by-n matrix.", "quantifier": "all m,n,nb, norms, contents, schedules", "why_tests_cant": "Edge tiles, empty dimensions and tile/size remainders interact; tests sample a handful of (m,n,k,nb) combinations.", "anchors": ["compute/pzlange.c:plasma_pzlange", "core_blas/core_zlange.c", "core_blas/core_zgessq.c"]}
{"id": "C27", "title": "Symmetric/Hermitian matrix norms", "statement": "plasma_zlansy/plasma_zlanhe return the norm of the full symmetric/Hermitian matrix described by one triangle; the other triangle has no influence.", "quantifier": "all n,nb, uplo, norms, contents, schedules", "why_tests_cant": "Edge tiles, empty dimensions and tile/size remainders interact; tests sample a handful of (m,n,k,nb) combinations.", "anchors": ["compute/pzlansy.c:plasma_pzlansy", "compute/pzlanhe.c:plasma_pzlanhe", "core_blas/core_zlansy.c", "core_blas/core_zlanhe.c", "core_blas/core_zsyssq.c", "core_blas/core_zhessq.c"]}
{"id": "C28", "title": "Triangular matrix norms", "statement": "plasma_zlantr returns the norm of the (possibly rectangular, possibly unit-diagonal) triangular part; elements outside it have no influence.", "quantifier": "all m,n,nb, uplo, diag, norms, contents, schedules", "why_tests_cant": "Edge tiles, empty dimensions and tile/size remainders interact; tests sample a handful of (m,n,k,nb) combinations. Rectangular shapes leave workspace entries that no tile task writes.", "anchors": ["compute/pzlantr.c:plasma_pzlantr", "compute/zlantr.c:plasma_zlantr", "core_blas/core_zlantr.c", "core_blas/core_ztrssq.c"]}
{"id": "C29", "title": "Column and row maxima", "statement": "plasma_dzamax returns, for every column (row), the maximum absolute value (|re|+|im|) in that column (row).", "quantifier": "all m,n,nb, orientation, contents, schedules", "why_tests_cant": "Edge tiles, empty dimensions and tile/size remainders interact; tests sample a handful of (m,n,k,nb) combinations.", "anchors": ["compute/pdzamax.c:plasma_pdzamax", "core_blas/core_dzamax.c"]}
{"id": "C30", "title": "Copy, set, scale and add", "statement": "plasma_zlacpy, plasma_zlaset, plasma_zlascl, plasma_zgeadd and plasma_ztradd change exactly the selected part (general, upper or lower) of the destination, to op(A), to alpha/beta, to A*cto/cfrom, to alpha*op(A)+beta*B respectively.", "quantifier": "all m,n,nb, uplo, trans, contents, schedules", "why_tests_cant": "Edge tiles, empty dimensions and tile/size remainders interact; tests sample a handful of (m,n,k,nb) combinations.", "anchors": ["compute/pzlacpy.c", "compute/pzlaset.c", "compute/pzlascl.c", "compute/pzgeadd.c", "compute/pztradd.c", "core_blas/core_zlacpy.c", "core_blas/core_zlaset.c", "core_blas/core_ztradd.c"]}
{"id": "C31", "title": "Transposed triangular copy stays inside the matrix", "statement": "The copy kernel with (Conj)Trans and Lower reads only elements (i,j) with j<=i, i<m, j<n of the source and writes only the corresponding elements of the destination.", "quantifier": "all m,n, leading dimensions", "why_tests_cant": "The out-of-range column is read and written only when m>n, and usually lands in allocated memory.", "anchors": ["core_blas/core_zlacpy.c:plasma_core_zlacpy"]}
{"id": "C32", "title": "The QR/LQ elimination order is always legal", "statement": "For every tile shape and every number of threads, the list of operations used by the tree QR/LQ factorization triangularizes and annihilates each sub-diagonal tile exactly once, always by a row that is at that moment triangular in that column and whose earlier columns are already annihilated, never exceeds the allocated list length, and is produced in finitely many steps.", "quantifier": "all mt,nt >= 1, all thread counts >= 1", "why_tests_cant": "The generator is a nest of counters with a thread-count dependent block size; tests run with a few thread counts and small tile grids.", "anchors": ["control/tree.c:plasma_tree_block_greedy", "control/tree.c:plasma_tree_operations", "control/tree.c:plasma_tree_insert_operation", "compute/pzgeqrf_tree.c"]}
{"id": "C33", "title": "QR factorization is correct", "statement": "plasma_zgeqrf (flat and tree) leaves an upper-triangular R and a sequence of unitary transformations whose product Q satisfies Q*R = A.", "quantifier": "all m,n,nb,ib, Householder modes, contents", "why_tests_cant": "Edge tiles, empty dimensions and tile/size remainders interact; tests sample a handful of (m,n,k,nb) combinations.", "anchors": ["compute/pzgeqrf.c:plasma_pzgeqrf", "compute/pzgeqrf_tree.c:plasma_pzgeqrf_tree", "core_blas/core_zgeqrt.c", "core_blas/core_ztsqrt.c", "core_blas/core_zttqrt.c"]}
{"id": "C34", "title": "Applying Q uses the Q of the factorization", "statement": "plasma_zunmqr after plasma_zgeqrf overwrites C with Q*C, Q^H*C, C*Q or C*Q^H for exactly the Q with Q*R=A; plasma_zungqr returns the leading columns of that Q; applying Q then Q^H restores C.", "quantifier": "all m,n,k,nb,ib, side, trans, contents, provided the elimination order is the same in both calls", "why_tests_cant": "Edge tiles, empty dimensions and tile/size remainders interact; tests sample a handful of (m,n,k,nb) combinations.", "anchors": ["compute/pzunmqr.c:plasma_pzunmqr", "compute/pzunmqr_tree.c", "compute/pzungqr.c", "compute/pzungqr_tree.c"]}
{"id": "C35", "title": "Applying Q is insensitive to the number of threads", "statement": "In tree mode, plasma_zunmqr/plasma_zungqr apply the Q computed by plasma_zgeqrf even if the number of OpenMP threads changed between the two calls.", "quantifier": "all tile shapes, all pairs of thread counts", "why_tests_cant": "Needs a program that changes the thread count between factorization and application; testers never do.", "anchors": ["control/tree.c:plasma_tree_operations", "compute/pzgeqrf_tree.c", "compute/pzunmqr_tree.c"]}
{"id": "C36", "title": "LQ factorization and application", "statement": "plasma_zgelqf leaves lower-triangular L and unitary transformations with L*Q = A; plasma_zunmlq and plasma_zunglq apply/generate exactly that Q.", "quantifier": "all m,n,k,nb,ib, side, trans, contents", "why_tests_cant": "Edge tiles, empty dimensions and tile/size remainders interact; tests sample a handful of (m,n,k,nb) combinations.", "anchors": ["compute/pzgelqf.c", "compute/pzunmlq.c", "compute/pzunglq.c", "compute/pzgelqf_tree.c"]}
{"id": "C37", "title": "Least squares / minimum norm solve", "statement": "plasma_zgels returns, for full-rank A, the least squares solution (overdetermined) or the minimum norm solution (underdetermined) of op(A)*X = B; in the least squares cases the sum of squares of the trailing elements of each column of B is the residual sum of squares.", "quantifier": "all m,n,nrhs,nb, trans, contents with full rank", "why_tests_cant": "Edge tiles, empty dimensions and tile/size remainders interact; tests sample a handful of (m,n,k,nb) combinations.", "anchors": ["compute/zgels.c:plasma_omp_zgels"]}
{"id": "C38", "title": "The panel barrier separates phases", "statement": "With P threads repeatedly calling plasma_barrier_wait on one barrier with size P, no thread returns from its r-th call before all P threads have made their r-th call, and once all have made it every one of them can return, for every interleaving of the individual memory operations.", "quantifier": "all P >= 1, all numbers of rounds, all interleavings (sequentially consistent memory)", "why_tests_cant": "Barrier failures need a specific interleaving of a handful of instructions.", "anchors": ["control/barrier.c:plasma_barrier_wait", "control/barrier.c:plasma_barrier_init", "core_blas/core_zgetrf.c"]}
{"id": "C39", "title": "The panel barrier never completes with too few runners", "statement": "If fewer than P threads ever execute a panel of P ranks, none of them returns from the barrier: a panel configured with more ranks than running threads does not terminate.", "quantifier": "all P, all interleavings", "why_tests_cant": "A hang is not a failed assertion.", "anchors": ["control/barrier.c:plasma_barrier_wait", "compute/pzgetrf.c:plasma_pzgetrf", "control/context.c:plasma_set"]}
{"id": "C40", "title": "Library parameters: set/get/init/finalize histories", "statement": "After any history of plasma_init, plasma_finalize, plasma_set, plasma_get calls, plasma_get returns the value of the last successful plasma_set of that parameter since the last successful plasma_init, or the documented default; rejected values change nothing; stored tile and panel parameters are always positive; every call other than plasma_init fails while the library is not initialized.", "quantifier": "all finite call histories, all parameter and value integers, inside or outside parallel regions", "why_tests_cant": "Histories are unbounded.", "anchors": ["control/context.c:plasma_init", "control/context.c:plasma_finalize", "control/context.c:plasma_set", "control/context.c:plasma_get"]}
{"id": "C41", "title": "Driver argument errors name the first bad argument and have no effect", "statement": "A driver called with illegal arguments returns -i where i is the position of the first illegal argument in its parameter list, and touches no user memory.", "quantifier": "all argument tuples", "why_tests_cant": "Combinatorially many illegal combinations.", "anchors": ["compute/zgemm.c:plasma_zgemm", "compute/ztrsm.c:plasma_ztrsm", "compute/zpotrf.c:plasma_zpotrf", "compute/zgetrf.c:plasma_zgetrf", "compute/zgesv.c:plasma_zgesv", "compute/zgetrs.c:plasma_zgetrs", "compute/zpbtrs.c:plasma_zpbtrs"]}
{"id": "C42", "title": "After a failure no later numerical task runs", "statement": "Once a sequence has recorded a failure, no guarded kernel task that starts afterwards modifies any matrix, the routine's returned status is non-zero, and a sequence without failures returns 0.", "quantifier": "all schedules, all failure points", "why_tests_cant": "Depends on when the failure lands relative to the other tasks.", "anchors": ["control/async.c:plasma_request_fail", "core_blas/core_zpotrf.c:plasma_core_omp_zpotrf", "core_blas/core_zgemm.c:plasma_core_omp_zgemm"]}
{"id": "C43", "title": "LU reports the singular column", "statement": "When plasma_zgetrf finds an exactly zero pivot it returns i such that U(i,i) is exactly zero, as in LAPACK, and returns the factors computed.", "quantifier": "all m,n,nb, contents with a zero pivot", "why_tests_cant": "Needs exactly singular inputs at every tile position.", "anchors": ["compute/zgetrf.c:plasma_zgetrf", "compute/pzgetrf.c:plasma_pzgetrf"]}
{"id": "C44", "title": "Mixed-precision solve reports its iteration count and stops", "statement": "plasma_zcgesv terminates after at most 30 refinement steps; iter = k with 0<=k<=30 means the backward error test held after k steps (and not earlier); iter = -31 means it never held and the double precision factorization produced X.", "quantifier": "all inputs, all behaviours of the single precision solver", "why_tests_cant": "Needs inputs that make refinement diverge at every step count.", "anchors": ["compute/zcgesv.c:plasma_omp_zcgesv", "compute/zcposv.c:plasma_omp_zcposv"]}
{"id": "C45", "title": "Mixed-precision solve falls back when the low-precision factorization fails", "statement": "If the single-precision factorization or conversion fails (overflow, exact singularity in single precision) plasma_zcgesv still solves the system in double precision.", "quantifier": "all inputs representable in double but not solvable in single", "why_tests_cant": "Needs inputs at the edge of the single precision range.", "anchors": ["compute/zcgesv.c:plasma_omp_zcgesv", "core_blas/core_zlag2c.c"]}
{"id": "C46", "title": "Band layout conversion round-trips", "statement": "Converting LAPACK band storage to band tiles and back reproduces the stored band exactly and touches nothing outside the band.", "quantifier": "all n,kl,ku,nb,ldab, contents, uplo variants", "why_tests_cant": "Edge tiles, empty dimensions and tile/size remainders interact; tests sample a handful of (m,n,k,nb) combinations.", "anchors": ["compute/pzpb2desc.c", "compute/pzdesc2pb.c", "compute/pzgb2desc.c", "core_blas/core_zlacpy_band.c"]}
{"id": "C47", "title": "Band Cholesky factorization and solve", "statement": "plasma_zpbtrf/plasma_zpbsv factor and solve with a Hermitian positive definite band matrix, touching only tiles inside the band.", "quantifier": "all n,kd,nrhs,nb, uplo, contents, schedules", "why_tests_cant": "Edge tiles, empty dimensions and tile/size remainders interact; tests sample a handful of (m,n,k,nb) combinations.", "anchors": ["compute/pzpbtrf.c:plasma_pzpbtrf", "compute/pztbsm.c:plasma_pztbsm", "compute/zpbtrs.c"]}
{"id": "C48", "title": "Eigenvalue bisection partitions the spectrum and stays inside the output arrays", "statement": "For a value range, plasma_zstevx2's bisection reports disjoint clusters whose multiplicities add up to the number of eigenvalues in the range, and every write to pVal/pMul is at an index in [0,k).", "quantifier": "all matrices, ranges, schedules of the recursive tasks", "why_tests_cant": "Recursion tree shape depends on the spectrum.", "anchors": ["compute/zlaebz2.c:plasma_zlaebz2", "compute/zstevx2.c:plasma_zstevx2"]}
{"id": "C49", "title": "Eigenvalue bisection by index stays inside the output arrays", "statement": "For an index range [il,iu], every write to pVal/pMul/pVec is at an index in [0,iu-il].", "quantifier": "all matrices and index ranges", "why_tests_cant": "Needs a repeated eigenvalue straddling il.", "anchors": ["compute/zlaebz2.c:plasma_zlaebz2", "compute/zstevx2.c:plasma_zstevx2"]}
{"id": "C50", "title": "Sturm count", "statement": "plasma_zlaneg2(diag,offd,n,u) returns the number of eigenvalues of the symmetric tridiagonal matrix strictly less than u.", "quantifier": "all n, all real diag/offd/u", "why_tests_cant": "Degenerate zeros of the recurrence occur only at isolated u.", "anchors": ["compute/zlaneg2.c:plasma_zlaneg2"]}
{"id": "C51", "title": "Eigenvalues-only request does not reference the eigenvector array", "statement": "plasma_zstevx2 with PlasmaNoVec never dereferences pVec or unallocated work arrays.", "quantifier": "all inputs with jobtype=PlasmaNoVec", "why_tests_cant": "Testers call PlasmaNoVec with a valid pVec.", "anchors": ["compute/zstevx2.c:plasma_zstevx2"]}
{"id": "C52", "title": "Constant translation is total and injective on documented constants", "statement": "Every documented PLASMA constant passed to LAPACK is translated to the LAPACK character with the same meaning, and distinct meanings within one parameter map to distinct characters.", "quantifier": "all documented constants", "why_tests_cant": "Completeness over the enumeration.", "anchors": ["control/constants.c", "include/plasma_internal.h:lapack_const"]}
{"id": "C53", "title": "Per-thread workspaces are never shared", "statement": "Two kernel bodies that use scratch space and run at the same time never receive the same scratch buffer.", "quantifier": "all schedules, team sizes", "why_tests_cant": "Sharing corrupts only when two bodies overlap in time.", "anchors": ["control/workspace.c:plasma_workspace_create", "core_blas/core_zgeqrt.c:plasma_core_omp_zgeqrt"]}
{"id": "C54", "title": "Checked descriptors describe a window inside the matrix", "statement": "If plasma_desc_check accepts a general descriptor then every element of the described window lies inside the gm-by-gn matrix, so every tile address is inside the allocation.", "quantifier": "all descriptors (all integers, negative ones included)", "why_tests_cant": "Nobody tests negative offsets.", "anchors": ["control/descriptor.c:plasma_desc_general_check", "control/descriptor.c:plasma_desc_check"]}
{"id": "C55", "title": "Every named constant has its own LAPACK character", "statement": "lapack_const maps every named PLASMA constant that has an entry in its table, PlasmaW and PlasmaA2 included, to the first character of its name.", "quantifier": "all named constants", "why_tests_cant": "Positions in a 500-entry literal table; nothing tests them.", "anchors": ["include/plasma_core_blas.h:lapack_constants", "include/plasma_core_blas.h:lapack_const"]}
{"id": "C56", "title": "Triangular norm is independent of the old contents of the workspace", "statement": "plasma_omp_zlantr documents work as output: the value of the norm does not depend on what the workspace contains before the call.", "quantifier": "all m,n,nb, uplo, diag, norms, workspace contents", "why_tests_cant": "A test that allocates with calloc (as plasma_zlantr does) or gets fresh zero pages never sees it.", "anchors": ["compute/zlantr.c:plasma_omp_zlantr", "compute/pzlantr.c:plasma_pzlantr"]}
{"id": "C57", "title": "LU picks a pivot of largest magnitude, multipliers and growth are bounded", "statement": "When plasma_zgetrf returns 0, every multiplier stored below the diagonal, multiplied by the pivot of its column, has magnitude (|re|+|im|) at most that of the pivot: with real data all multipliers are at most 1 in absolute value, with complex data at most sqrt(2), and the entries of U grow by at most (1+sqrt(2))^i in row i; for every tile size, inner block size and number of panel threads.", "quantifier": "all m,n, nb, ib, panel thread counts, matrices, schedules", "why_tests_cant": "A wrong reduction between panel threads still gives a correct factorization; only accuracy suffers on rare matrices.", "anchors": ["core_blas/core_zgetrf.c:plasma_core_zgetrf", "compute/pzgetrf.c:plasma_pzgetrf"]}
{"id": "C58", "title": "LU result does not depend on the tuning parameters", "statement": "The return value, the pivots and the factors computed by plasma_zgetrf depend only on the matrix, not on the tile size, inner block size, number of panel threads, leading dimension or schedule.", "quantifier": "all matrices, all pairs of settings, all schedules", "why_tests_cant": "Differences need exact ties in a column spread over several panel threads.", "anchors": ["core_blas/core_zgetrf.c:plasma_core_zgetrf", "compute/pzgetrf.c:plasma_pzgetrf", "compute/zgetrf.c:plasma_zgetrf"]}
{"id": "C59", "title": "Triangular and band storage: stored tiles lie inside the allocation and do not overlap", "statement": "If plasma_desc_triangular_create or plasma_desc_general_band_create (with the row count the band drivers pass) succeeds, then every element of the stored triangle of tiles, or of the band including fill-in, has an address of its own inside the allocated memory.", "quantifier": "all sizes, tile sizes, bandwidths, aligned windows", "why_tests_cant": "An overrun by one tile corrupts the heap only for particular remainders.", "anchors": ["control/descriptor.c:plasma_desc_triangular_create", "control/descriptor.c:plasma_desc_general_band_create", "include/plasma_descriptor.h:plasma_tile_addr_triangle", "include/plasma_descriptor.h:plasma_tile_addr_general_band"]}
{"id": "C60", "title": "The kernels that apply reflectors apply op(Q), for every shape of the tiles", "statement": "plasma_core_ztsmqr, plasma_core_zttmqr, plasma_core_ztsmlq and plasma_core_zttmlq (with the workspace their tasks hand them, whatever its contents) replace the pair of tiles by op(Q) times the pair, or the pair times op(Q), where Q is the product of the block reflectors in V and T; nothing outside the two tiles changes.  plasma_core_zunmqr and plasma_core_zunmlq do the same for one tile.  This holds for both sides and transpositions, every inner block size, last blocks that are shorter and last tiles with fewer rows than reflectors.", "quantifier": "all tile shapes, inner block sizes, sides, transpositions, contents of tiles and workspace", "why_tests_cant": "Pentagonal corner cases (short last tile, short last block) need particular remainders in every dimension at once.", "anchors": ["core_blas/core_zpamm.c:plasma_core_zpamm", "core_blas/core_zparfb.c:plasma_core_zparfb", "core_blas/core_ztsmqr.c:plasma_core_ztsmqr", "core_blas/core_zttmqr.c:plasma_core_zttmqr", "core_blas/core_ztsmlq.c:plasma_core_ztsmlq", "core_blas/core_zttmlq.c:plasma_core_zttmlq", "core_blas/core_zunmqr.c:plasma_core_zunmqr", "core_blas/core_zunmlq.c:plasma_core_zunmlq"]}
{"id": "C61", "title": "The kernels that eliminate a tile against a triangle leave a unitary Q with Q*R = the pair", "statement": "plasma_core_ztsqrt, plasma_core_zttqrt (and plasma_core_ztslqt, plasma_core_zttlqt transposed) overwrite the triangle A1 by R and leave reflectors in A2 and T whose product Q is unitary with Q*[R;0] = [A1;A2], for any contents that T and the workspace hold before the call; the results depend only on the parts of the operands that are documented as input, and nothing below the diagonal of A1 (for the triangular kernels also of A2) changes.", "quantifier": "all m, n >= 1, ib >= 1, leading dimensions, contents of tiles, T and workspace", "why_tests_cant": "Columns that are already eliminated (tau = 0) inside an inner block and memory that happens not to be zero are needed together.", "anchors": ["core_blas/core_zpemv.c:plasma_core_zpemv", "core_blas/core_ztsqrt.c:plasma_core_ztsqrt", "core_blas/core_zttqrt.c:plasma_core_zttqrt", "core_blas/core_ztslqt.c:plasma_core_ztslqt", "core_blas/core_zttlqt.c:plasma_core_zttlqt", "control/descriptor.c:plasma_descT_create"]}
{"id": "C62", "title": "Solving with saved QR or LQ factors gives least squares and minimum norm solutions", "statement": "plasma_zgeqrf followed (any number of times) by plasma_zgeqrs with the factors and T left by it: every column of the leading n rows of B is the least squares solution of A X = B and the other rows hold the residual sum of squares.  plasma_zgelqf followed by plasma_zgelqs: every column of B is the minimum norm solution.  Only B changes.", "quantifier": "all m, n, nrhs, nb, ib, leading dimensions, full-rank matrices, schedules", "why_tests_cant": "A few shapes are tested against the residual only; factors reused for several right-hand sides and empty systems are not.", "anchors": ["compute/zgeqrs.c:plasma_zgeqrs", "compute/zgeqrs.c:plasma_omp_zgeqrs", "compute/zgelqs.c:plasma_zgelqs", "compute/zgelqs.c:plasma_omp_zgelqs"]}
{"id": "C63", "title": "plasma_zgeinv inverts in one call and reports the first dependent column", "statement": "plasma_zgeinv on a square matrix returns 0 exactly when the matrix is non-singular; then A holds its inverse (on both sides) and ipiv the pivots.  Otherwise it returns i, where column i is the first that depends linearly on the columns before it; the tasks of the triangular inversion, which run at the same time as the factorization, never report first.  Only A and ipiv change.", "quantifier": "all n, nb, ib, panel thread counts, leading dimensions, matrices, schedules", "why_tests_cant": "Factorization, inversion, product and column swaps are in one task graph; which task fails first depends on the schedule.", "anchors": ["compute/zgeinv.c:plasma_zgeinv", "compute/zgeinv.c:plasma_omp_zgeinv", "compute/pztrtri.c:plasma_pztrtri", "compute/pzgetri_aux.c:plasma_pzgetri_aux"]}
{"id": "C64", "title": "plasma_zgbsv solves band systems; a nonzero value is the first dependent column", "statement": "plasma_zgbsv returns 0 exactly when the band matrix A is non-singular; then A X = B and the pivots are in range. Otherwise it returns i, where column i of A is the first that depends linearly on the columns before it. Only the band with its fill-in, ipiv and B change. This holds for every band width and every content of the array outside of the band.", "quantifier": "all n, kl, ku, nrhs, nb, ib, panel thread counts, leading dimensions that are accepted, matrices, schedules", "why_tests_cant": "The tests fill the array outside of the band with zeros and use one leading dimension; schedules of the panels are not controlled.", "anchors": ["compute/zgbsv.c:plasma_zgbsv", "compute/zgbsv.c:plasma_omp_zgbsv", "compute/pzgbtrf.c:plasma_pzgbtrf", "compute/pztbsm.c:plasma_pztbsm"]}
{"id": "C65", "title": "plasma_zgbtrf computes P A = L U of a band matrix", "statement": "plasma_zgbtrf of a square band matrix returns 0 exactly when the matrix is non-singular; then the interchanges i <-> ipiv[i]-1, applied in order to A, give L U with a unit lower triangular L and the upper triangular U with kl+ku superdiagonals that the array holds, with non-zero diagonal. Otherwise it returns the number of the first column that depends on the columns before it. Only the band with its fill-in and ipiv change.", "quantifier": "all n, kl, ku, nb, ib, panel thread counts, leading dimensions that are accepted, matrices, schedules", "why_tests_cant": "Fill-in, pivots relative to the panel that are adjusted by other tasks, and sections of the band array in depend clauses interact only for particular widths and tile sizes.", "anchors": ["compute/zgbtrf.c:plasma_zgbtrf", "compute/zgbtrf.c:plasma_omp_zgbtrf", "compute/pzgbtrf.c:plasma_pzgbtrf"]}
{"id": "C66", "title": "plasma_zgbtrs solves op(A) X = B with the factors of plasma_zgbtrf", "statement": "If plasma_zgbtrf returned 0 and the band array and ipiv are passed unchanged to plasma_zgbtrs, then op(A) X = B for A as it was before the factorization, for trans = NoTrans, Trans and ConjTrans and any number of calls; only B changes.", "quantifier": "all n, kl, ku, nrhs, nb, leading dimensions that are accepted, matrices, schedules of both calls", "why_tests_cant": "The interchanges are interleaved with the solve; wrong ones show only if pivoting crosses tile boundaries.", "anchors": ["compute/zgbtrs.c:plasma_zgbtrs", "compute/zgbtrs.c:plasma_omp_zgbtrs", "compute/pztbsm.c:plasma_pztbsm"]}
{"id": "C67", "title": "plasma_zgbmm multiplies by a band matrix", "statement": "If the lda-by-ka array pA holds a matrix A that is zero outside its kl subdiagonals and ku superdiagonals, a call of plasma_zgbmm that passes the argument checks leaves alpha*op(A)*op(B) + beta*C in pC, for all transpositions, rectangular A and widths; nothing else of the user's memory changes.  Which elements of an array that is not zero outside the band enter the product is determined by the tile size alone.", "quantifier": "all m, n, k, kl, ku, nb, leading dimensions, scalars, matrices, schedules", "why_tests_cant": "The loops over the tiles of the band start at different tiles for each tile row, may be empty for tall matrices, and beta must be applied exactly once; each remainder of the widths by nb is a case of its own.", "anchors": ["compute/zgbmm.c:plasma_zgbmm", "compute/zgbmm.c:plasma_omp_zgbmm", "compute/pzgemm.c:plasma_pzgemm", "compute/pzgb2desc.c:plasma_pzgb2desc", "compute/zgb2desc.c:plasma_omp_zgb2desc"]}
{"id": "C68", "title": "plasma_zgbmm accepts the documented arguments", "statement": "plasma_zgbmm returns 0 for all documented arguments (m, n, k >= 0, bandwidths smaller than the dimensions of A, large enough leading dimensions), and an error otherwise; the band descriptor it creates describes A.", "quantifier": "all argument values, tile sizes", "why_tests_cant": "Transposed rectangular band matrices and empty matrices are not in the test sweep.", "anchors": ["compute/zgbmm.c:plasma_zgbmm", "control/descriptor.c:plasma_desc_general_band_create", "control/descriptor.c:plasma_desc_general_band_check"]}
{"id": "C69", "title": "plasma_zlangb returns the norm of the band matrix", "statement": "For arguments that are accepted plasma_zlangb returns the max, one, infinity or Frobenius norm of the m-by-n matrix with kl subdiagonals and ku superdiagonals stored in AB, whatever the array holds outside of the band; it reads nothing outside the array, its work array is large enough, and AB does not change.", "quantifier": "all m, n, kl, ku, nb, norms, leading dimensions that are accepted, arrays, schedules", "why_tests_cant": "The tests fill the whole array of one layout and compare with LAPACK on square matrices only; positions in the work array depend on the tile column.", "anchors": ["compute/zlangb.c:plasma_zlangb", "compute/zlangb.c:plasma_omp_zlangb", "compute/pzlangb.c:plasma_pzlangb", "compute/pzpb2desc.c:plasma_pzpb2desc"]}
{"id": "C70", "title": "The conversion of band matrices to tiles writes only into the declared tile", "statement": "Every kernel call of the conversion of an m-by-n general band matrix assigns only to elements of the tile that its task declares.", "quantifier": "all m, n, kl, ku, nb, tiles", "why_tests_cant": "A write into the neighbouring tile is repaired by the task for that tile under most schedules, and wide band matrices are not tested.", "anchors": ["compute/pzpb2desc.c:plasma_pzpb2desc", "core_blas/core_zlacpy_band.c:plasma_core_zlacpy_lapack2tile_band"]}
{"id": "C71", "title": "The first stage of plasma_zgesdd turns A into a band matrix with the same singular values", "statement": "For 1 <= nb <= min(m,n), after the reduction to band form and the copy, A = Q*B*P with unitary Q and P, where B is the m-by-n upper (m >= n) or lower (m < n) band matrix of width nb that the bulge chasing finds in pA_band; the rest of pA_band is zero, the user's A is not changed, and all views of descriptors are in range.  The copy and the bulge chasing agree on where the band is stored.", "quantifier": "all m, n, nb, ib, lda, matrices, schedules", "why_tests_cant": "QR and LQ steps alternate on overlapping views of the same tiles, the kernels' reflectors share the tiles with the band, and a wrong alternation changes singular values without any visible structure.", "anchors": ["compute/zgesdd.c:plasma_zgesdd", "compute/zgesdd.c:plasma_omp_zgesdd", "compute/pzge2gb.c:plasma_pzge2gb", "compute/pzgecpy_tile2lapack_band.c:plasma_pzgecpy_tile2lapack_band"]}
{"id": "C72", "title": "The bulge chasing of plasma_zgesdd never deadlocks and has one result", "statement": "plasma_pzgbbrd_static on a band matrix of order n >= 2 with bandwidth nb >= 1, upper or lower, without vectors: whatever the number of threads and their interleaving, the threads that wait for ss_progress never block for ever, the number of actions is bounded, every block of every sweep is executed exactly once by a thread that exists, and the memory at the end is what the sweeps give one after the other, so it does not depend on threads or timing. All indices into ss_progress, the band array, VQ, VP, TAUQ and TAUP are inside the allocations.", "quantifier": "all n >= 2, nb >= 1, uplo, numbers of threads, interleavings of single memory accesses, contents of the arrays", "why_tests_cant": "The static scheduler has no tasks or locks, only spin loops on a table; an entry overwritten too early, or a missing wait, shows only for rare timings and particular ends of sweeps.", "anchors": ["compute/pzgbbrd_static.c:plasma_pzgbbrd_static", "core_blas/core_zgbtype1cb.c:plasma_core_zgbtype1cb", "core_blas/core_zgbtype2cb.c:plasma_core_zgbtype2cb", "core_blas/core_zgbtype3cb.c:plasma_core_zgbtype3cb"]}
{"id": "C73", "title": "The bulge chasing of plasma_zgesdd gives a real bidiagonal matrix with the same singular values", "statement": "For a band matrix A of order n >= 1 and width nb >= 1, upper or lower, whose first diagonal element is real, stored with zeros next to the band as plasma_omp_zgesdd prepares it, plasma_pzgbbrd_static returns D and E with A = Q*B*P, Q and P unitary, B the bidiagonal matrix with diagonal D and off-diagonal E (above the diagonal for upper, below for lower). The other diagonals of the band in the array are zero afterwards.", "quantifier": "all n, nb, uplo, real or complex matrices, numbers of threads, interleavings", "why_tests_cant": "Each of the n-1 sweeps chases a bulge through the whole band; a reflector applied to one row too few, or a wrong conjugation, leaves a matrix that is still bidiagonal in the places read but has other singular values, and D and E drop imaginary parts silently.", "anchors": ["compute/pzgbbrd_static.c:plasma_pzgbbrd_static", "core_blas/core_zgbtype1cb.c:plasma_core_zgbtype1cb", "core_blas/core_zgbtype2cb.c:plasma_core_zgbtype2cb", "core_blas/core_zgbtype3cb.c:plasma_core_zgbtype3cb"]}
{"id": "C74", "title": "plasma_zgesdd returns the singular values of A", "statement": "plasma_zgesdd with jobu = jobvt = PlasmaNoVec and 1 <= nb <= min(m,n) returns in S[0..min(m,n)-1] the singular values of the m-by-n matrix A on entry, in decreasing order and with multiplicity, tall or wide, for every schedule of the tasks and every number of threads in the bulge chasing. Array elements outside the m-by-n matrix keep their values.", "quantifier": "all m, n, nb, ib, lda >= m, real or complex matrices, schedules, numbers of threads", "why_tests_cant": "Whether S are the singular values of A is a statement about an eigenvalue problem that a test can only check through residuals of a few matrices, and the result passes through three stages with different storage (tiles, band array, D and E) whose hand-over conventions (place of the band, zeros next to it, real first element, upper or lower) must agree for every shape.", "anchors": ["compute/zgesdd.c:plasma_zgesdd", "compute/zgesdd.c:plasma_omp_zgesdd", "compute/pzge2gb.c:plasma_pzge2gb", "compute/pzgecpy_tile2lapack_band.c:plasma_pzgecpy_tile2lapack_band", "compute/pzgbbrd_static.c:plasma_pzgbbrd_static"]}
{"id": "C75", "title": "Solving a Hermitian indefinite system leaves the library parameters alone", "statement": "What plasma_get reports after plasma_zhetrf or plasma_zhesv is what it reported before: a factorization does not change nb, ib, tuning or the number of panel threads.", "quantifier": "all arguments, parameter values, numbers of calls", "why_tests_cant": "The change is invisible in results and makes only later calls slower; it accumulates over calls and depends on what the user had set.", "anchors": ["compute/zhetrf.c:plasma_zhetrf", "compute/zhesv.c:plasma_zhesv", "control/context.c:plasma_get"]}
{"id": "C76", "title": "plasma_zhetrf and plasma_zhesv accept every call that meets their documentation", "statement": "A call with uplo = PlasmaLower and n, nrhs, lda, ldb as documented passes the creation of the internal descriptors, and the band matrix T is cleared inside its allocation.", "quantifier": "all n, nrhs, leading dimensions, nb", "why_tests_cant": "Depends on n against the tile size of the library and on an argument ldt that the documentation does not restrict; the tests use n larger than nb and ldt of the right size.", "anchors": ["compute/zhetrf.c:plasma_zhetrf", "compute/zhesv.c:plasma_zhesv", "control/descriptor.c:plasma_desc_general_band_create", "control/descriptor.c:plasma_desc_general_band_check"]}
{"id": "C77", "title": "The symmetric interchanges of the Hermitian indefinite factorization are exact for every number of panel threads", "statement": "plasma_core_zheswp, called by any number of ranks with one barrier, replaces a Hermitian matrix of which only the lower triangle is stored by the matrix with the rows and the columns interchanged by the pivots of one block column: elements that cross the diagonal are conjugated, others are not. No element is touched by two ranks between two barriers, the strict upper triangle and the columns left of the block are not written, and the result does not depend on the number of ranks or their order.", "quantifier": "all n, nb, block columns, pivots, numbers of ranks, orders of the exchanges between barriers, contents", "why_tests_cant": "The exchanges are split into six kinds of pieces over tiles and ranks; a boundary wrong by one in one of them matters only when a pivot is in a particular place relative to the tile boundaries and the shares of the ranks.", "anchors": ["core_blas/core_zheswp.c:plasma_core_zheswp"]}
{"id": "C78", "title": "The Hermitian indefinite factorization of plasma_zhetrf is P*A*P^H = L*T*L^H", "statement": "If the tiled Aasen algorithm (plasma_pzhetrf_aasen, uplo = PlasmaLower) ends with status zero, then the Hermitian matrix A given by the lower triangle on entry satisfies P*A*P^H = L*T*L^H: P is the product of the interchanges in ipiv, L is unit lower triangular with the first block column of the identity and its other columns in the block columns of A shifted by one tile, T is the Hermitian band matrix of width nb in the array for T. The pivots are in range. A non-zero status is a column number between nb+1 and n.", "quantifier": "all n > 0, nb, ib, numbers of panel threads and workspace tiles, matrices over a field with conjugation", "why_tests_cant": "The algorithm keeps an auxiliary matrix H in a workspace, splits the update over several workspace tiles, and interchanges rows of factors already computed; one wrong tile index or missing conjugation gives factors of a different matrix that only a residual over all n and all numbers of workspace tiles would show.", "anchors": ["compute/pzhetrf_aasen.c:plasma_pzhetrf_aasen", "core_blas/core_zheswp.c:plasma_core_zheswp", "core_blas/core_zgetrf.c:plasma_core_zgetrf"]}
{"id": "C79", "title": "plasma_zhetrf and plasma_zhesv succeed for every non-singular Hermitian matrix", "statement": "The factorization of a non-singular Hermitian matrix does not report a failure; a positive return value means that the matrix is singular.", "quantifier": "all n, nb, non-singular Hermitian matrices", "why_tests_cant": "The tests use random matrices, for which no block of the matrix below the diagonal block is rank deficient; structured matrices (diagonal, block diagonal, sparse) are not tried.", "anchors": ["compute/pzhetrf_aasen.c:plasma_pzhetrf_aasen", "compute/zhetrf.c:plasma_zhetrf", "compute/zhesv.c:plasma_zhesv"]}
{"id": "C80", "title": "plasma_zhesv solves the Hermitian indefinite system", "statement": "Every execution of plasma_zhesv with uplo = PlasmaLower, n > nb, ldt = 4*nb and an array pT that is cleared: if the return value is 0 then A is non-singular and A*X = B for the Hermitian matrix A given by the lower triangle of pA and B on entry; ipiv and ipiv2 hold indices between i and n. Otherwise the return value is between 1 and n. No schedule of the tasks gives another result, and nothing is written but the n-by-nrhs elements of B and the n elements of ipiv and ipiv2.", "quantifier": "all n > nb, nrhs > 0, lda, ldb, ib, numbers of panel threads, Hermitian matrices over a field with conjugation, schedules", "why_tests_cant": "Two factorizations, their interchanges and six solves run as one graph of tasks without a barrier between the two factorizations, and the conversion of T brings in what the caller left in an output argument.", "anchors": ["compute/zhesv.c:plasma_zhesv", "compute/zhesv.c:plasma_omp_zhesv", "compute/pzhetrf_aasen.c:plasma_pzhetrf_aasen", "compute/pzgbtrf.c:plasma_pzgbtrf", "compute/pztbsm.c:plasma_pztbsm", "compute/pzgeswp.c:plasma_pzgeswp"]}
{"id": "C81", "title": "plasma_zhetrf leaves factors with which plasma_zhetrs solves the system", "statement": "Every execution of plasma_zhetrf with uplo = PlasmaLower, n > nb and ldt a multiple of nb, at least 4*nb, that returns 0 leaves in pA, pT, ipiv, ipiv2 the factors of the Hermitian matrix A given by the lower triangle on entry: P*A*P^H = L*T*L^H with T Hermitian of bandwidth nb and the band factors of T in pT; A is then non-singular. Otherwise the value is between 1 and n. Only the lower tiles of pA, the band of pT and the n elements of ipiv and ipiv2 are written. Every later execution of plasma_zhetrs on these arrays and any right-hand sides gives A*X = B and writes only B.", "quantifier": "all n > nb, nrhs, lda, ldt, ldb, ib, numbers of panel threads, Hermitian matrices over a field with conjugation, schedules of both calls, right-hand sides", "why_tests_cant": "The factors pass through LAPACK and band layouts between the calls; elements of T outside the stored band would be lost silently, and each call has its own schedule.", "anchors": ["compute/zhetrf.c:plasma_zhetrf", "compute/zhetrf.c:plasma_omp_zhetrf", "compute/zhetrs.c:plasma_zhetrs", "compute/zhetrs.c:plasma_omp_zhetrs", "compute/pzdesc2pb.c:plasma_pzdesc2pb", "compute/pzpb2desc.c:plasma_pzpb2desc"]}
{"id": "C82", "title": "plasma_zgbset clears the elements outside of the band and nothing else", "statement": "For 0 <= kl < m, 0 <= ku < n and lda >= m, plasma_zgbset sets every element A(i,j) with j > i+ku or i > j+kl to zero and leaves the band, the rows between m and lda, and all other memory as they were. With illegal widths or an empty matrix nothing is changed.", "quantifier": "all m, n, kl, ku, lda, contents, tile sizes, schedules of the calls inside", "why_tests_cant": "The function clears two triangles at once by a window of skewed columns that run out of the matrix at the bottom; the test calls it only to prepare its data, with the leading dimension equal to m by default, and does not look at the result.", "anchors": ["compute/zgbset.c:plasma_zgbset", "compute/zlaset.c:plasma_zlaset"]}
{"id": "C83", "title": "The precision conversions report overflow and never mix old and new contents", "statement": "plasma_zlag2c returns 0 or 1, and 1 exactly if some element of pA does not fit in single precision. If it returns 0, pAs is pA rounded element by element. If it returns 1, every element of pAs is as before the call or the rounded element, and as before in every tile that has an element that does not fit. pA and the elements outside the m-by-n matrix in pAs are never written. plasma_clag2z widens element by element, and converting the result back gives the matrix one started with.", "quantifier": "all m, n, lda, ldas, tile sizes, matrices, rounding functions, predicates for overflow, schedules", "why_tests_cant": "Which tiles are converted before the failure is seen depends on the schedule; the routine that tests the conversion uses elements of order one, for which no overflow occurs.", "anchors": ["compute/zlag2c.c:plasma_zlag2c", "compute/clag2z.c:plasma_clag2z", "compute/pzlag2c.c:plasma_pzlag2c", "compute/pclag2z.c:plasma_pclag2z", "core_blas/core_zlag2c.c:plasma_core_omp_zlag2c"]}
{"id": "C84", "title": "A failing solve leaves the right-hand sides as they were", "statement": "If plasma_zposv or plasma_zgesv returns a value other than 0, the array of the right-hand sides is what it was before the call, in every element, whatever tasks had run when the failure was seen; the caller can go on with another solver.", "quantifier": "all n, nrhs, lda, ldb, tile sizes, matrices for which the factorization fails, schedules", "why_tests_cant": "Solves of other tiles and the copies back to the user's array may be under way when the failing tile is factored; which of them run depends on the schedule, and a test sees one schedule of one matrix.", "anchors": ["compute/zposv.c:plasma_zposv", "compute/zposv.c:plasma_omp_zposv", "compute/zgesv.c:plasma_zgesv", "compute/zgesv.c:plasma_omp_zgesv", "compute/pztrsm.c:plasma_pztrsm", "compute/pzdesc2ge.c:plasma_pzdesc2ge"]}
{"id": "C85", "title": "Failing band and indefinite solvers leave the user's data as they were", "statement": "If plasma_zgbtrf or plasma_zgbsv returns a value other than 0, the band matrix (and the right-hand sides) are what they were before the call; only ipiv may have changed. If plasma_zhetrf or plasma_zhesv does, pA, pT and B are as before; only ipiv and ipiv2 may have changed. If plasma_zpbsv does, the right-hand sides are as before.", "quantifier": "all orders, band widths, leading dimensions, tile sizes, triangles, contents, matrices for which the factorization fails, schedules", "why_tests_cant": "Solves of other tiles and the copies back may be under way when the failing tile is factored; which of them run depends on the schedule. LAPACK routines return partial factors instead, so the contents after a failure cannot be guessed from the interface.", "anchors": ["compute/zgbtrf.c:plasma_zgbtrf", "compute/zgbsv.c:plasma_zgbsv", "compute/zhetrf.c:plasma_zhetrf", "compute/zhesv.c:plasma_zhesv", "compute/zpbsv.c:plasma_zpbsv", "compute/pztbsm.c:plasma_pztbsm", "compute/pzdesc2pb.c:plasma_pzdesc2pb"]}
{"id": "C86", "title": "A failing plasma_zpotrf leaves only old elements and elements of the Cholesky factor", "statement": "If plasma_zpotrf returns st > 0, let q be the multiple of nb with q < st <= q+nb. The first q columns of the Cholesky factor of A exist, and every element of the selected triangle of pA is what it was before the call or, in one of the first q columns (rows for PlasmaUpper), the element of that factor; never an intermediate value of the trailing update. The other triangle and all other memory are unchanged. Which elements are replaced is not determined by the call: two executions with the same arguments and the same return value can leave different matrices, so the matrix must be saved by the caller.", "quantifier": "all n, lda, nb, triangles, matrices for which the factorization fails, schedules", "why_tests_cant": "The copies back to the user's array run concurrently with the factorization and are cut off at a point that depends on the schedule; LAPACK leaves the leading factor and the updated trailing block instead.", "anchors": ["compute/zpotrf.c:plasma_zpotrf", "compute/zpotrf.c:plasma_omp_zpotrf", "compute/pzpotrf.c:plasma_pzpotrf", "compute/pzdesc2tr.c:plasma_pzdesc2tr", "core_blas/core_zlacpy.c:plasma_core_omp_zlacpy"]}
{"id": "C87", "title": "plasma_zgesdd applies all reflectors of the bulge chasing to the singular vectors, in the right order", "statement": "For bandwidth nb >= 2 and Vblksiz >= 1, plasma_pzlarft_blgtrd followed by plasma_pzunmqr_blgtrd(PlasmaLeft, PlasmaNoTrans, ...), as plasma_zgesdd calls them for U, replaces E by Q*E, and with (PlasmaRight, PlasmaConjTrans, ...), as for VT, by E*Q^H, where Q is the product of all reflectors of the bulge chasing, sweep after sweep in the order in which they were generated. This holds for every number of threads in either call. The rows and columns of E outside are not changed. All reflectors have their own place inside of the arrays V and TAU, and they are exactly those of the blocks that the bulge chasing executes.", "quantifier": "all N, nb >= 2, Vblksiz >= 1, numbers of columns NE, numbers of threads (also different ones in the two calls), interleavings, reflectors and scalars, scalars with conjugation", "why_tests_cant": "The reflectors are applied in diamond-shaped blocks across sweeps, in an order that differs from the one in which they were generated and is right only because the others commute; a reflector missing at the edge of a block, or a block too many, shows up only for some combinations of order, width and block size.", "anchors": ["compute/pzlarft_blgtrd.c:plasma_pzlarft_blgtrd", "compute/pzunmqr_blgtrd.c:plasma_pzunmqr_blgtrd", "core_blas/core_zlarfb_gemm.c:plasma_core_zlarfb_gemm", "include/bulge.h:findVTpos", "include/bulge.h:findVTsiz", "compute/zgesdd.c:plasma_omp_zgesdd"]}
{"id": "C88", "title": "The workspace of plasma_zgesdd is large enough to apply the reflectors of the bulge chasing", "statement": "Whatever the order, the tile size, the inner block size and the number of threads, the part of a thread's workspace that plasma_pzunmqr_blgtrd hands to plasma_core_zlarfb_gemm is inside of the ib*nb + 4*nb*nb elements that plasma_zgesdd allocates.", "quantifier": "all N, NE, nb >= 4, ib, numbers of threads, blocks, chunks", "why_tests_cant": "The number of columns in a chunk is chosen by heuristics from the number of threads and does not involve the tile size, on which the allocation depends; a heap overflow needs small tiles and few threads.", "anchors": ["compute/pzunmqr_blgtrd.c:plasma_pzunmqr_blgtrd", "compute/zgesdd.c:plasma_zgesdd", "core_blas/core_zlarfb_gemm.c:plasma_core_zlarfb_gemm"]}
{"id": "C89", "title": "The reflectors that the bulge chasing stores are the factors of its transformation", "statement": "plasma_pzgbbrd_static with wantz = 2, as plasma_zgesdd calls it when singular vectors are wanted, leaves in (VQ, TAUQ) and (VP, TAUP) elementary reflectors whose products, sweep by sweep, are unitary matrices Q2 and P2 with A = Q2 B P2^H, where A is the band matrix given to it and B the bidiagonal matrix left in the band array, real except possibly for the first element, which is not changed. This holds for upper and lower band matrices, every number of threads and every interleaving; all executions leave the same bits; every access is inside of the arrays that plasma_omp_zgesdd allocates; each reflector starts with a stored one and the places that belong to no reflector stay zero, so that plasma_pzlarft_blgtrd and plasma_pzunmqr_blgtrd, applied to the factors of the bidiagonal matrix from dbdsdc, give factors of the band matrix.", "quantifier": "for all orders n >= 2, widths nb >= 2, blockings Vblksiz >= 1, both values of uplo, all numbers of threads, all interleavings, all band matrices", "why_tests_cant": "Tests compare residuals of a few matrices with one team of threads; a reflector stored in a wrong place, overwritten by a later sweep or used by a concurrent kernel before it is complete shows only for certain sizes and interleavings.", "anchors": ["compute/pzgbbrd_static.c:101-178", "core_blas/core_zgbtype1cb.c", "core_blas/core_zgbtype2cb.c", "core_blas/core_zgbtype3cb.c", "include/bulge.h:38-63", "compute/zgesdd.c:486-575", "compute/zgesdd.c:660-735"]}
{"id": "C90", "title": "plasma_zgesdd turns the singular vectors of the band matrix into those of A", "statement": "Let plasma_pzge2gb have reduced A to the band matrix B. Then there are unitary Q1 and P1 with A = Q1*B*P1, and what plasma_omp_zgesdd does after the bulge chasing (translate U to tiles, plasma_pzunmqr with NoTrans from the left on A and T, or on their views below the first tile row if m < n, translate back; plasma_pzunmlq with NoTrans from the right on VT likewise) replaces U by Q1*U and VT by VT*P1 with the same Q1 and P1. So if U*S*VT = B with orthonormal columns of U and rows of VT on entry, U*S*VT = A with orthonormal columns and rows on exit. A and T are not changed, nothing is written between the columns of U and VT, every view is inside its descriptor.", "quantifier": "all m, n with nb <= min(m,n), ib, leading dimensions, numbers of columns of U and rows of VT (all, some), matrices, schedules of the reduction and of the two applications", "why_tests_cant": "The same tiles of A hold QR reflectors below and LQ reflectors beyond the band; which tile and which tile of T belongs to which factor depends on the shape (m < n or not), and for the shifted factors on three views with matching offsets. Tests compare residuals of a few shapes with one schedule.", "anchors": ["compute/zgesdd.c:plasma_omp_zgesdd", "compute/pzge2gb.c:plasma_pzge2gb", "compute/pzunmqr.c:plasma_pzunmqr", "compute/pzunmlq.c:plasma_pzunmlq", "include/plasma_descriptor.h:plasma_desc_view"]}
{"id": "C91", "title": "plasma_zgesdd with vectors returns a singular value decomposition", "statement": "Every successful call of plasma_zgesdd with jobu = jobvt = PlasmaAllVec or PlasmaSomeVec returns arrays U, S and VT with A = U*Sigma*VT, where A is the matrix on entry and Sigma has S on its diagonal. U has m (all) or min(m,n) (some) columns, which are orthonormal; VT has n or min(m,n) rows, which are orthonormal. S holds the singular values of A in decreasing order.", "quantifier": "all m, n with 2 <= nb <= min(m,n), ib, block sizes of the bulge chasing, leading dimensions, matrices; all schedules of the tasks and all interleavings of any number of threads in the reduction, the bulge chasing and the four parallel regions that apply the reflectors", "why_tests_cant": "The result is composed of six phases with different concurrency (tasks, static pipelines with progress tables, statically divided columns), whose reflectors are kept in four arrays and in the tiles of A and T; a test runs one schedule and checks a residual for a few shapes, it cannot show that every schedule and shape combines the matching transformations.", "anchors": ["compute/zgesdd.c:plasma_zgesdd", "compute/zgesdd.c:plasma_omp_zgesdd", "compute/pzge2gb.c:plasma_pzge2gb", "compute/pzgbbrd_static.c:plasma_pzgbbrd_static", "compute/pzlarft_blgtrd.c:plasma_pzlarft_blgtrd", "compute/pzunmqr_blgtrd.c:plasma_pzunmqr_blgtrd", "compute/pzunmqr.c:plasma_pzunmqr", "compute/pzunmlq.c:plasma_pzunmlq"]}
{"id": "C92", "title": "plasma_zgesdd writes only the matrices U and VT inside of the arrays of the caller", "statement": "As with all other routines, U and VT may be parts of larger arrays: a call of plasma_zgesdd with vectors writes the m-by-Un elements of U and the VTm-by-n elements of VT, and not the rows of the arrays between m and ldu and between VTm and ldvt.", "quantifier": "all m, n, leading dimensions, matrices, schedules", "why_tests_cant": "Tests allocate arrays of exactly ldu*Un elements and look at the elements of U and VT only; whether rows in between are touched is not observed.", "anchors": ["compute/zgesdd.c:plasma_omp_zgesdd"]}
{"id": "C93", "title": "plasma_pzunmqr_blgtrd applies Q or its conjugate transpose from the side it is told", "statement": "plasma_pzunmqr_blgtrd replaces E by Q*E, Q^H*E, E*Q or E*Q^H, according to side and trans, where Q is the product of the reflectors of the bulge chasing in the order in which they were generated.", "quantifier": "all sides, values of trans, N, NE, nb >= 2, Vblksiz, contents of V, TAU and E, numbers of threads and interleavings", "why_tests_cant": "The library calls only two of the four combinations, so no test of a driver reaches the others; and whether the traversal order of the blocks fits the combination can be seen only with at least two reflectors that do not commute.", "anchors": ["compute/pzunmqr_blgtrd.c:plasma_pzunmqr_blgtrd", "compute/pzlarft_blgtrd.c:plasma_pzlarft_blgtrd", "core_blas/core_zlarfb_gemm.c:plasma_core_zlarfb_gemm"]}
{"id": "C94", "title": "findVTpos computes the positions of the reflectors without undefined behaviour", "statement": "For every reflector that plasma_zgesdd with vectors generates, findVTpos (with Vblksiz = nb/4, as plasma_omp_zgesdd sets it) divides by no zero and overflows no int, and the positions it returns are those of the reflector in V, TAU and T, inside of the allocated arrays.", "quantifier": "all matrix sizes, tile sizes and reflectors", "why_tests_cant": "The tile size can be set to any positive value, tests use the default or multiples of 4; the overflow needs a matrix with min(m,n) of about 59000 and tens of gigabytes of reflectors.", "anchors": ["include/bulge.h:findVTpos", "include/bulge.h:findVTsiz", "include/bulge.h:plasma_ceildiv", "compute/zgesdd.c:plasma_omp_zgesdd"]}
{"id": "C95", "title": "plasma_zgesdd reports every failure and releases its memory", "statement": "plasma_zgesdd with valid arguments returns success only when the decomposition has been computed, returns an error whenever one of its allocations or the bidiagonal solver fails, never accesses a matrix that could not be allocated, and releases everything it allocated other than the matrix T of the caller.", "quantifier": "all patterns of failing allocations, all results of dbdsdc, with and without vectors", "why_tests_cant": "Tests do not run out of memory at a chosen allocation, and dbdsdc does not fail on ordinary matrices.", "anchors": ["compute/zgesdd.c:plasma_zgesdd", "compute/zgesdd.c:plasma_omp_zgesdd", "control/descriptor.c:plasma_desc_general_create"]}

{
 "claims": [
  {
   "property": "C01",
   "status": "proved",
   "theorems": [
    "Verif.Props.C01_gemm"
   ],
   "note": "General-matrix path of pzgemm; exact arithmetic; every legal schedule."
  },
  {
   "property": "C02",
   "status": "proved",
   "theorems": [
    "Verif.Props.C02_gemm_frame"
   ],
   "note": ""
  },
  {
   "property": "C03",
   "status": "proved",
   "theorems": [
    "Verif.Props.C03_tile_layout",
    "Verif.Props.C03_create"
   ],
   "note": ""
  },
  {
   "property": "C04",
   "status": "proved",
   "theorems": [
    "Verif.Props.C04_round_trip"
   ],
   "note": ""
  },
  {
   "property": "C05",
   "status": "partial",
   "theorems": [
    "Verif.Props.C05_general",
    "Verif.Props.C05_triangular",
    "Verif.Props.C05_band_partial",
    "Verif.Props.C05_band_wide_rejected"
   ],
   "note": "General and triangular variants hold in full. Band: holds for bandwidth < n; half-bandwidth >= n is rejected although the drivers declare it legal (C05_band_wide_rejected)."
  },
  {
   "property": "C06",
   "status": "partial",
   "theorems": [
    "Verif.Props.C06_zero_tile_ub",
    "Verif.Props.C06_negative_tile_partial"
   ],
   "note": "False as stated: a zero tile size is a division by zero before the check (C06_zero_tile_ub). Negative tile sizes are rejected."
  },
  {
   "property": "C07",
   "status": "proved",
   "theorems": [
    "Verif.Props.C07_views"
   ],
   "note": ""
  },
  {
   "property": "C08",
   "status": "proved",
   "theorems": [
    "Verif.Props.C08_schedule_independence"
   ],
   "note": "Generic over programs whose tasks declare what they touch; every modelled routine is shown to be such a program in its own file."
  },
  {
   "property": "C09",
   "status": "partial",
   "theorems": [
    "Verif.Props.C09_syrk_partial",
    "Verif.Props.C09_herk_partial",
    "Verif.Props.C09_zero_inner_ignored"
   ],
   "note": "False as stated for k = 0 with beta != 1: the drivers then leave C unscaled (C09_zero_inner_ignored). Proved for every other case."
  },
  {
   "property": "C10",
   "status": "partial",
   "theorems": [
    "Verif.Props.C10_syr2k_partial",
    "Verif.Props.C10_her2k_partial",
    "Verif.Props.C10_zero_inner_ignored"
   ],
   "note": "False as stated for k = 0 with beta != 1 (C10_zero_inner_ignored). Proved for every other case."
  },
  {
   "property": "C11",
   "status": "proved",
   "theorems": [
    "Verif.Props.C11_symm",
    "Verif.Props.C11_other_triangle"
   ],
   "note": ""
  },
  {
   "property": "C12",
   "status": "proved",
   "theorems": [
    "Verif.Props.C12_trsm",
    "Verif.Props.C12_other_triangle"
   ],
   "note": "Exact arithmetic; quotient by zero left open."
  },
  {
   "property": "C13",
   "status": "partial",
   "theorems": [
    "Verif.Props.C13_trsm_zero_partial",
    "Verif.Props.C13_singular",
    "Verif.Props.C13_divides_by_alpha"
   ],
   "note": "False as stated: the code has no alpha = 0 case. Proved: the result is zero for invertible matrices, and for Right/(Conj)Trans with any matrix. Refuted: singular matrices in the other nests (C13_singular), and the absence of a division by alpha (C13_divides_by_alpha)."
  },
  {
   "property": "C14",
   "status": "proved",
   "theorems": [
    "Verif.Props.C14_trmm",
    "Verif.Props.C14_other_triangle"
   ],
   "note": ""
  },
  {
   "property": "C15",
   "status": "proved",
   "theorems": [
    "Verif.Props.C15_potrf"
   ],
   "note": "Exact arithmetic; the tile kernel zpotrf by contract (IsPotrf, shown satisfiable). Every execution with returned status 0."
  },
  {
   "property": "C16",
   "status": "proved",
   "theorems": [
    "Verif.Props.C16_potrf_info"
   ],
   "note": "The status word is read and written atomically in the model."
  },
  {
   "property": "C17",
   "status": "proved",
   "theorems": [
    "Verif.Props.C17_potrs",
    "Verif.Props.C17_potrf_potrs",
    "Verif.Props.C17_posv"
   ],
   "note": "Exact arithmetic; every legal execution of the guarded task program. zposv with nrhs=0 returns early without factoring (DESIGN section 4)."
  },
  {
   "property": "C18",
   "status": "proved",
   "theorems": [
    "Verif.Props.C18_lauum"
   ],
   "note": "Exact arithmetic; tile kernel zlauum by contract (IsLauum, shown satisfiable)."
  },
  {
   "property": "C19",
   "status": "proved",
   "theorems": [
    "Verif.Props.C19_trtri"
   ],
   "note": "Exact arithmetic; tile kernel ztrtri by contract (IsTrtri, shown satisfiable). Also: the value returned is 0 exactly for invertible matrices, otherwise the position of a zero on the diagonal."
  },
  {
   "property": "C20",
   "status": "proved",
   "theorems": [
    "Verif.Props.C20_potrf_potri",
    "Verif.Props.C20_poinv"
   ],
   "note": "Exact arithmetic; kernels by contract."
  },
  {
   "property": "C21",
   "status": "proved",
   "theorems": [
    "Verif.Props.C21_geswp",
    "Verif.Props.C21_geswp_inverse"
   ],
   "note": "Increments 1 and -1 (the only ones PLASMA uses). Both matchings of array sections. Pivots in range is a hypothesis."
  },
  {
   "property": "C22",
   "status": "partial",
   "theorems": [
    "Verif.Props.C22_getrf_partial"
   ],
   "note": "Exact arithmetic. Array sections in depend clauses matched by region for all sizes; by base address for m <= 3*nb or n <= nb, and false (racy) for other sizes, see C23."
  },
  {
   "property": "C23",
   "status": "partial",
   "theorems": [
    "Verif.Props.C23_getrf_order_refuted",
    "Verif.Props.C23_gesv_order_refuted",
    "Verif.Props.C23_getrf_order_partial",
    "Verif.Props.C23_omp_getrf_order_partial"
   ],
   "note": "Refuted: under base-address matching every zgetrf call with at least 4 tile rows and 2 tile columns, and every zgesv call with n > 3*nb, contains an unordered conflict between a layout-conversion task and an update task. Proved: zgetrf is properly ordered exactly when m <= 3*nb or n <= nb; the factorization tasks alone (data already in tiles) are always properly ordered."
  },
  {
   "property": "C24",
   "status": "partial",
   "theorems": [
    "Verif.Props.C24_getrs",
    "Verif.Props.C24_getrf_getrs_partial",
    "Verif.Props.C24_gesv_partial"
   ],
   "note": "Exact arithmetic. plasma_zgetrs: both matchings of array sections. Factorization: region matching (see C23). plasma_zgesv also: returns 0 exactly for nonsingular A, otherwise the number of the first dependent column."
  },
  {
   "property": "C25",
   "status": "partial",
   "theorems": [
    "Verif.Props.C25_getri",
    "Verif.Props.C25_getrf_getri_partial"
   ],
   "note": "zgetri is proved under both readings of the OpenMP depend clauses (array sections, base addresses): status, inverse on both sides, index on failure, frame. Missing: the composition with zgetrf uses array-section matching for zgetrf (see C23); exact arithmetic; the single-tile ztrtri kernel is a LAPACK contract."
  },
  {
   "property": "C26",
   "status": "proved",
   "theorems": [
    "Verif.Props.C26_lange"
   ],
   "note": "Exact arithmetic; LAPACK zlassq by contract (IsLassq, shown satisfiable), zlange/dlange kernels by specification. Empty matrices give 0."
  },
  {
   "property": "C27",
   "status": "proved",
   "theorems": [
    "Verif.Props.C27_lansy",
    "Verif.Props.C27_other_triangle"
   ],
   "note": "Symmetric and Hermitian. Exact arithmetic; LAPACK kernels by contract."
  },
  {
   "property": "C28",
   "status": "proved",
   "theorems": [
    "Verif.Props.C28_lantr",
    "Verif.Props.C28_outside"
   ],
   "note": "Exact arithmetic. The zeroed workspace of the driver (calloc) is a hypothesis; it is needed, see C56."
  },
  {
   "property": "C29",
   "status": "proved",
   "theorems": [
    "Verif.Props.C29_amax"
   ],
   "note": "Exact arithmetic. For empty matrices the driver returns at once and leaves values untouched."
  },
  {
   "property": "C30",
   "status": "proved",
   "theorems": [
    "Verif.Props.C30_lacpy",
    "Verif.Props.C30_laset",
    "Verif.Props.C30_lascl",
    "Verif.Props.C30_add"
   ],
   "note": "Exact arithmetic: the kernel zlascl is taken by its specification A*cto/cfrom."
  },
  {
   "property": "C31",
   "status": "partial",
   "theorems": [
    "Verif.Props.C31_inside_partial",
    "Verif.Props.C31_outside"
   ],
   "note": "False as stated: for m > n the kernel touches column n of the source and row n of the destination (C31_outside). Proved for m <= n, which covers every call of plasma_zlacpy."
  },
  {
   "property": "C32",
   "status": "proved",
   "theorems": [
    "Verif.Props.C32_tree"
   ],
   "note": "All mt, nt, thread counts >= 1; integers unbounded."
  },
  {
   "property": "C33",
   "status": "partial",
   "theorems": [
    "Verif.Props.C33_geqrf_partial",
    "Verif.Props.C33_geqrf_flat",
    "Verif.Props.C33_frame",
    "Verif.Props.C61_geqrf_stale"
   ],
   "note": "Flat mode: full claim, all m, n, nb, ib, lda, every execution, whatever T holds. Tree mode, any number of threads: proved if T is zero before the call; refuted otherwise (C61_geqrf_stale: the library allocates T and never sets it). Kernels ztsqrt, zttqrt modelled statement by statement; zgeqrt given by Householder's algorithm; exact arithmetic over R or C."
  },
  {
   "property": "C34",
   "status": "partial",
   "theorems": [
    "Verif.Props.C34_apply_partial",
    "Verif.Props.C34_restore_left_partial",
    "Verif.Props.C34_restore_right_partial",
    "Verif.Props.C34_ungqr_refuted"
   ],
   "note": "Proved for zunmqr (both sides, both trans) and for the leading min(m,n) columns of zungqr; in tree mode if T is zero before the factorization. Refuted for zungqr with more columns than reflectors: these columns are never written."
  },
  {
   "property": "C35",
   "status": "partial",
   "theorems": [
    "Verif.Props.C35_partial",
    "Verif.Props.C35_refuted"
   ],
   "note": "False in general: 3 by 2 tiles, factored with 1 thread, applied with 2. Proved when the block size of the tree is the same for both numbers of threads."
  },
  {
   "property": "C36",
   "status": "partial",
   "theorems": [
    "Verif.Props.C36_gelqf_partial",
    "Verif.Props.C36_gelqf_flat",
    "Verif.Props.C36_frame",
    "Verif.Props.C36_apply_partial",
    "Verif.Props.C36_restore_left_partial",
    "Verif.Props.C36_restore_right_partial",
    "Verif.Props.C36_unglq_refuted"
   ],
   "note": "Factorization and zunmlq (both sides, both trans) proved in flat mode for every T, in tree mode if T is zero before the call; zunglq for the leading min(m,n) rows. Refuted for zunglq with more rows than reflectors: these rows are never written."
  },
  {
   "property": "C37",
   "status": "partial",
   "theorems": [
    "Verif.Props.C37_noTrans_partial",
    "Verif.Props.C37_conjTrans_partial",
    "Verif.Props.C37_factor_partial",
    "Verif.Props.C37_frame",
    "Verif.Props.C37_residual_partial",
    "Verif.Props.C37_residual_refuted"
   ],
   "note": "Solution property for all sizes including empty ones, both transpositions, every execution; in flat mode whatever T holds, in tree mode if the T that zgels allocates is zero. The documented residual sum of squares holds except with no unknowns (n = 0, or m = 0 with ConjTrans): the quick return zeroes B; refuted with a witness. Exact arithmetic; Two-tile kernels modelled statement by statement (C61), the one-tile kernel by Householder's algorithm."
  },
  {
   "property": "C38",
   "status": "proved",
   "theorems": [
    "Verif.Props.C38_barrier_separates",
    "Verif.Props.C38_barrier_progress"
   ],
   "note": "Sequentially consistent memory, one step per memory operation."
  },
  {
   "property": "C39",
   "status": "proved",
   "theorems": [
    "Verif.Props.C39_too_few_runners"
   ],
   "note": ""
  },
  {
   "property": "C40",
   "status": "proved",
   "theorems": [
    "Verif.Props.C40_context"
   ],
   "note": ""
  },
  {
   "property": "C41",
   "status": "partial",
   "theorems": [
    "Verif.Props.Args.C41_dzamax",
    "Verif.Props.Args.C41_zcgbsv_wrong",
    "Verif.Props.Args.C41_zcgesv",
    "Verif.Props.Args.C41_zcposv",
    "Verif.Props.Args.C41_zgbmm_wrong",
    "Verif.Props.Args.C41_zgbmm_partial",
    "Verif.Props.Args.C41_zgbsv_wrong",
    "Verif.Props.Args.C41_zgbsv_partial",
    "Verif.Props.Args.C41_zgbtrf",
    "Verif.Props.Args.C41_zgbtrs",
    "Verif.Props.Args.C41_zgeadd",
    "Verif.Props.Args.C41_zgeinv_wrong",
    "Verif.Props.Args.C41_zgelqf",
    "Verif.Props.Args.C41_zgelqs",
    "Verif.Props.Args.C41_zgels_wrong",
    "Verif.Props.Args.C41_zgels_partial",
    "Verif.Props.Args.C41_zgemm",
    "Verif.Props.Args.C41_zgeqrf",
    "Verif.Props.Args.C41_zgeqrs",
    "Verif.Props.Args.C41_zgesdd_wrong",
    "Verif.Props.Args.C41_zgesdd_partial",
    "Verif.Props.Args.C41_zgesv",
    "Verif.Props.Args.C41_zgeswp",
    "Verif.Props.Args.C41_zgetrf",
    "Verif.Props.Args.C41_zgetri",
    "Verif.Props.Args.C41_zgetri_aux",
    "Verif.Props.Args.C41_zgetrs_wrong",
    "Verif.Props.Args.C41_zgetrs_partial",
    "Verif.Props.Args.C41_zhemm",
    "Verif.Props.Args.C41_zsymm",
    "Verif.Props.Args.C41_zher2k",
    "Verif.Props.Args.C41_zsyr2k",
    "Verif.Props.Args.C41_zherk",
    "Verif.Props.Args.C41_zsyrk",
    "Verif.Props.Args.C41_zhesv_wrong",
    "Verif.Props.Args.C41_zhesv_partial",
    "Verif.Props.Args.C41_zhetrs_wrong",
    "Verif.Props.Args.C41_zhetrs_partial",
    "Verif.Props.Args.C41_zhetrf",
    "Verif.Props.Args.C41_zlacpy",
    "Verif.Props.Args.C41_zlacpy_square",
    "Verif.Props.Args.C41_zlag2c",
    "Verif.Props.Args.C41_zlangb",
    "Verif.Props.Args.C41_zlange",
    "Verif.Props.Args.C41_zlanhe",
    "Verif.Props.Args.C41_zlansy",
    "Verif.Props.Args.C41_zlantr",
    "Verif.Props.Args.C41_zlascl",
    "Verif.Props.Args.C41_zlaset_wrong",
    "Verif.Props.Args.C41_zlaset_partial",
    "Verif.Props.Args.C41_zlauum",
    "Verif.Props.Args.C41_zpoinv",
    "Verif.Props.Args.C41_zpotrf",
    "Verif.Props.Args.C41_zpotri",
    "Verif.Props.Args.C41_zpbsv",
    "Verif.Props.Args.C41_zpbtrf",
    "Verif.Props.Args.C41_zpbtrs_wrong",
    "Verif.Props.Args.C41_zpbtrs_partial",
    "Verif.Props.Args.C41_zposv",
    "Verif.Props.Args.C41_zpotrs",
    "Verif.Props.Args.C41_ztradd",
    "Verif.Props.Args.C41_ztrmm_wrong",
    "Verif.Props.Args.C41_ztrmm_partial",
    "Verif.Props.Args.C41_ztrsm_wrong",
    "Verif.Props.Args.C41_ztrsm_partial",
    "Verif.Props.Args.C41_ztrtri",
    "Verif.Props.Args.C41_zunglq",
    "Verif.Props.Args.C41_zungqr",
    "Verif.Props.Args.C41_zunmlq",
    "Verif.Props.Args.C41_zunmqr",
    "Verif.Props.Args.C41_zgeinv_partial",
    "Verif.Props.Args.C41_zcgbsv_partial",
    "Verif.Props.Args.C41_zgesdd_small",
    "Verif.Props.Args.C41_zgemm_call",
    "Verif.Props.Args.C41_zpotrf_call"
   ],
   "note": "Holds for 44 drivers and, with complete calls from C-level arguments, for zgemm and zpotrf. False for the drivers with a _wrong theorem (position of an argument misreported); for those the _partial theorem shows that illegal arguments are still rejected with a negative value. Drivers check before they touch memory by construction of Call; 32-bit overflow of 1+kl+ku not modelled."
  },
  {
   "property": "C42",
   "status": "proved",
   "theorems": [
    "Verif.Props.C42_after_failure"
   ],
   "note": "For arbitrary guarded task systems; the status word is read and written atomically in the model."
  },
  {
   "property": "C43",
   "status": "partial",
   "theorems": [
    "Verif.Props.C43_getrf_singular_partial",
    "Verif.Props.C43_getrf_singular_refuted"
   ],
   "note": "False as stated: the value returned is min(m,n)+i and no factors are copied back. Proved: i is the first column depending on the columns before it; 0 is returned exactly if the first min(m,n) columns are independent. Region matching for all sizes, base-address matching for m <= 3*nb or n <= nb (others are racy, C23)."
  },
  {
   "property": "C44",
   "status": "partial",
   "theorems": [
    "Verif.Props.C44_zcgesv_partial",
    "Verif.Props.C44_zcposv_partial"
   ],
   "note": "For every behaviour of the single-precision part (arbitrary functions with a status that leave A and B alone), whenever the call reports success. Missing: the tasks between two taskwaits run in program order in this model (the code has unordered accesses to the work array under base-address matching, see DESIGN.md section 4); norms enter through their proved values; exact arithmetic."
  },
  {
   "property": "C45",
   "status": "partial",
   "theorems": [
    "Verif.Props.C45_refuted",
    "Verif.Props.C45_refuted_underflow",
    "Verif.Props.C45_refuted_overflow"
   ],
   "note": "False: any failure of the single-precision part (in particular overflow in the conversion or a matrix that rounds to zero) sets the sequence status, every later task is skipped, X is not written and an error is reported."
  },
  {
   "property": "C46",
   "status": "partial",
   "theorems": [
    "Verif.Props.C46_in",
    "Verif.Props.C46_out",
    "Verif.Props.C46_roundtrip",
    "Verif.Props.C46_exists",
    "Verif.Props.C46_general_roundtrip_partial",
    "Verif.Props.C46_general_aliases",
    "Verif.Props.C46_general_underrun"
   ],
   "note": "Hermitian band storage (the plasma_zpb* drivers): full claim proved for every order, bandwidth, tile size, leading dimension and schedule. General band storage (the plasma_zgb* drivers): the round trip is proved when the leading dimension leaves room for the rows the copy kernel really touches; with the leading dimension the drivers accept the claim is false, shown by C46_general_aliases and C46_general_underrun."
  },
  {
   "property": "C47",
   "status": "proved",
   "theorems": [
    "Verif.Props.C47_pbtrf",
    "Verif.Props.C47_pbtrf_frame",
    "Verif.Props.C47_pbtrf_info",
    "Verif.Props.C47_tiles",
    "Verif.Props.C47_pbtrs",
    "Verif.Props.C47_pbsv",
    "Verif.Props.C47_diagonal_any",
    "Verif.Props.C47_diagonal_refuted"
   ],
   "note": "All orders, bandwidths, tile sizes, both triangles, every execution; return value 0 exactly for positive definite matrices, with at least one off-diagonal the first failing order. Found: with kd = 0 the value returned for an indefinite matrix depends on the schedule (C47_diagonal_any, C47_diagonal_refuted). Exact arithmetic; LAPACK potrf kernel by specification."
  },
  {
   "property": "C48",
   "status": "partial",
   "theorems": [
    "Verif.Props.C48_clusters",
    "Verif.Props.C48_stevx2_partial",
    "Verif.Props.C48_stevx2_refuted_overflow",
    "Verif.Props.C48_stevx2_refuted_missing"
   ],
   "note": "False as stated: with the miscounts of plasma_zlaneg2 (C50) eigenvalues are missed and an index >= k is written (both refuted with concrete matrices). Proved for all matrices, ranges and any finite-between-two-points number system: given a correct count, clusters are disjoint, ordered, sum to the number in the range, and all indices are within [0,k); and with zlaneg2's own count when no tested number is an eigenvalue and no off-diagonal entry is zero. Exact arithmetic in the count; plasma_zstelg not modelled."
  },
  {
   "property": "C49",
   "status": "partial",
   "theorems": [
    "Verif.Props.C49_index_partial",
    "Verif.Props.C49_stevx2_refuted"
   ],
   "note": "False: identity of order 2, il=iu=2 writes index -1. Proved: upper bound always, lower bound when a number separates eigenvalues il-1 and il, all requested eigenvalues covered by disjoint clusters."
  },
  {
   "property": "C50",
   "status": "partial",
   "theorems": [
    "Verif.Props.C50_laneg2_partial",
    "Verif.Props.C50_laneg2_unreduced_partial",
    "Verif.Props.C50_laneg2_refuted_split",
    "Verif.Props.C50_laneg2_refuted_eigenvalue"
   ],
   "note": "False when u is an eigenvalue or two consecutive leading minors vanish (two refutations). Proved for all n, d, b otherwise, including the rescaling, via Sylvester's law of inertia; exact characterisation for unreduced matrices. Exact real arithmetic."
  },
  {
   "property": "C51",
   "status": "partial",
   "theorems": [
    "Verif.Props.C51_noVec_refuted",
    "Verif.Props.C51_count_partial"
   ],
   "note": "False: every accepted PlasmaNoVec call dereferences the NULL stein_arrays and touches pVec."
  },
  {
   "property": "C52",
   "status": "proved",
   "theorems": [
    "Verif.Props.C52_constants",
    "Verif.Props.C52_injective"
   ],
   "note": ""
  },
  {
   "property": "C53",
   "status": "partial",
   "theorems": [
    "Verif.Props.C53_buffers_partial",
    "Verif.Props.C53_refuted_creation",
    "Verif.Props.C53_refuted_outside",
    "Verif.Props.C53_refuted_null"
   ],
   "note": "Holds in every execution when the team that runs the tasks is no larger than the teams that counted and filled the array; plasma_workspace_create does not enforce this, and with other team sizes (OMP_DYNAMIC) it writes or reads outside the array or hands out NULL."
  },
  {
   "property": "C54",
   "status": "partial",
   "theorems": [
    "Verif.Props.C54_checked_window_partial",
    "Verif.Props.C54_negative_offset_accepted"
   ],
   "note": "False as stated: negative offsets pass the check (C54_negative_offset_accepted)."
  },
  {
   "property": "C55",
   "status": "partial",
   "theorems": [
    "Verif.Props.C55_shifted_constants",
    "Verif.Props.C52_constants"
   ],
   "note": "False: a missing comma shifts PlasmaW and PlasmaA2; the other constants are covered by C52_constants."
  },
  {
   "property": "C56",
   "status": "partial",
   "theorems": [
    "Verif.Props.C56_dirty_work_refuted",
    "Verif.Props.C56_max_partial"
   ],
   "note": "False for the one norm (refuted for every execution on the 2-by-2 identity with a workspace of sevens). Proved for the max norm: any workspace contents."
  },
  {
   "property": "C57",
   "status": "partial",
   "theorems": [
    "Verif.Props.C57_pivots_partial",
    "Verif.Props.C57_growth_partial",
    "Verif.Props.C57_real_partial"
   ],
   "note": "All sizes and settings, every execution. Missing: base-address matching of depend clauses only for the sizes where zgetrf is properly ordered (C23); exact arithmetic."
  },
  {
   "property": "C58",
   "status": "partial",
   "theorems": [
    "Verif.Props.C58_status_partial",
    "Verif.Props.C58_factors_partial",
    "Verif.Props.C58_threads_refuted"
   ],
   "note": "Return value: proved. Pivots and factors: false when a column has ties (3-by-2 witness where one and two panel threads choose different pivots), proved when no tie occurs. Same restriction on depend matching as C22."
  },
  {
   "property": "C59",
   "status": "partial",
   "theorems": [
    "Verif.Props.C59_triangular_partial",
    "Verif.Props.C59_rectangular_refuted",
    "Verif.Props.C59_band"
   ],
   "note": "Proved for square triangular matrices with square tiles (all the drivers create) and for every band matrix. Refuted for rectangular matrices or tiles: the call reports success and the last tiles lie outside the allocation."
  },
  {
   "property": "C60",
   "status": "partial",
   "theorems": [
    "Verif.Props.C60_qr_left",
    "Verif.Props.C60_qr_right",
    "Verif.Props.C60_lq_left",
    "Verif.Props.C60_lq_right_partial",
    "Verif.Props.C60_lq_right_refuted",
    "Verif.Props.C60_one_tile",
    "Verif.Props.C60_qr_tasks",
    "Verif.Props.C60_lq_tasks_partial"
   ],
   "note": "Statement-level model of the kernels down to BLAS and LAPACK calls, all sizes. Refuted for the LQ kernels from the right when the first tile has more rows than columns (workspace leading dimension too small; the tile algorithms never do this); proved otherwise. Exact arithmetic."
  },
  {
   "property": "C61",
   "status": "partial",
   "theorems": [
    "Verif.Props.C61_tsqrt",
    "Verif.Props.C61_tsqrt_reads",
    "Verif.Props.C61_ttqrt_partial",
    "Verif.Props.C61_ttqrt_frame",
    "Verif.Props.C61_ttqrt_reads",
    "Verif.Props.C61_tslqt",
    "Verif.Props.C61_ttlqt_partial",
    "Verif.Props.C61_pemv_partial",
    "Verif.Props.C61_pemv_refuted",
    "Verif.Props.C61_ttqrt_refuted",
    "Verif.Props.C61_ttlqt_refuted",
    "Verif.Props.C61_geqrf_stale"
   ],
   "note": "Statement-level model of the four kernels and of zpemv. ztsqrt and ztslqt: full claim. zttqrt and zttlqt: proved if T is zero before the call or no later reflector of a block has tau = 0; refuted otherwise, because zpemv returns early for alpha = beta = 0 without setting y, and the uninitialised T enters the block reflector. Exact arithmetic."
  },
  {
   "property": "C62",
   "status": "partial",
   "theorems": [
    "Verif.Props.C62_geqrs_partial",
    "Verif.Props.C62_gelqs_partial",
    "Verif.Props.C62_gelqs_refuted",
    "Verif.Props.C62_geqrs_frame",
    "Verif.Props.C62_gelqs_frame"
   ],
   "note": "All sizes, every execution, both householder modes. Refuted for zgelqs with m = 0: the quick return leaves B although the minimum norm solution is zero (plasma_zgels stores zeros). Missing: tree mode with a T that was not zero before the factorization (C61_geqrf_stale). Exact arithmetic."
  },
  {
   "property": "C63",
   "status": "partial",
   "theorems": [
    "Verif.Props.C63_geinv_partial",
    "Verif.Props.C63_geinv_order_refuted",
    "Verif.Props.C63_geinv_rectangular_refuted"
   ],
   "note": "Square matrices, every size and setting, every execution, depend sections matched by region: full claim. Refuted with sections matched by base address (more than three tile rows: data race), and for the rectangular matrices the driver accepts (writes behind its workspace). Exact arithmetic."
  },
  {
   "property": "C64",
   "status": "partial",
   "theorems": [
    "Verif.Props.C64_gbsv_partial",
    "Verif.Props.C64_padding_refuted",
    "Verif.Props.C64_ldab_alias",
    "Verif.Props.C64_sections_race"
   ],
   "note": "All sizes, widths and settings, every execution, if the array is zero next to the band (also in the fill-in) and has kl+nb rows below and max(kl+ku,nb-1) rows above the diagonal, and kl+ku >= 1 for the number of the column. Refuted without zeros next to the band (identity reported singular), for the smallest leading dimension accepted (aliases), with depend sections matched by storage for long matrices (race), and for kl = ku = 0 (C65_diagonal_refuted). Exact arithmetic."
  },
  {
   "property": "C65",
   "status": "partial",
   "theorems": [
    "Verif.Props.C65_gbtrf_partial",
    "Verif.Props.C65_diagonal_refuted"
   ],
   "note": "Square matrices; hypotheses as for C64. Refuted for kl = ku = 0: the panels are unordered and any zero diagonal entry may be reported. Exact arithmetic."
  },
  {
   "property": "C66",
   "status": "partial",
   "theorems": [
    "Verif.Props.C66_gbtrs_partial"
   ],
   "note": "All transpositions, every execution of both calls; hypotheses on the array as for C64. Exact arithmetic."
  },
  {
   "property": "C67",
   "status": "proved",
   "theorems": [
    "Verif.Props.C67_gbmm",
    "Verif.Props.C67_gbmm_tiles",
    "Verif.Props.C67_gbmm_frame",
    "Verif.Props.C67_outside_band_refuted"
   ],
   "note": "All sizes, widths, transpositions, every execution. C67_gbmm_tiles says what is computed for any array; C67_outside_band_refuted shows that elements outside the band are used or not depending on the tile size. Exact arithmetic."
  },
  {
   "property": "C68",
   "status": "partial",
   "theorems": [
    "Verif.Props.C68_args_partial",
    "Verif.Props.C68_args_refuted",
    "Verif.Props.C68_descriptor"
   ],
   "note": "Proved for a non-empty A that is not transposed. Refuted otherwise: the widths are compared with the dimensions of op(A), so every call with m = 0 and every transposed call with m <= kl < k is rejected."
  },
  {
   "property": "C69",
   "status": "partial",
   "theorems": [
    "Verif.Props.C69_langb_partial",
    "Verif.Props.C69_langb_tiles",
    "Verif.Props.C69_work",
    "Verif.Props.C69_outside_band_refuted",
    "Verif.Props.C69_ldab_refuted",
    "Verif.Props.C69_width_refuted"
   ],
   "note": "All four norms, every execution. Proved if the places outside the band that share a tile with it (and the fill-in rows) are zero, the leading dimension has room for the rows the conversion touches, the widths are smaller than the matrix, and the matrix is not of the wide shapes of C70. Refuted without each of these. C69_langb_tiles says what is computed for any array. zlassq by its contract; exact arithmetic."
  },
  {
   "property": "C70",
   "status": "partial",
   "theorems": [
    "Verif.Props.C70_convert_partial",
    "Verif.Props.C70_convert_iff",
    "Verif.Props.C70_wide_refuted"
   ],
   "note": "C70_convert_iff characterises the sizes for which the claim holds; they include n <= m and nb | m. Refuted for the others: zero-fill left of the tile."
  },
  {
   "property": "C71",
   "status": "proved",
   "theorems": [
    "Verif.Props.C71_gesdd_band",
    "Verif.Props.C71_band_agree",
    "Verif.Props.C71_band_disagree"
   ],
   "note": "All sizes, both shapes, every execution. C71_band_disagree: through plasma_omp_zgesdd, which does not reject min(m,n) < nb, the copy and the bulge chasing disagree on the place of the band. Exact arithmetic; one-tile QR and LQ kernels by specification (met by lkern)."
  },
  {
   "property": "C72",
   "status": "proved",
   "theorems": [
    "Verif.Props.C72_progress",
    "Verif.Props.C72_result",
    "Verif.Props.C72_threads",
    "Verif.Props.C72_safe",
    "Verif.Props.C72_foot",
    "Verif.Props.C72_blocks",
    "Verif.Props.C72_exists"
   ],
   "note": "All sizes, both triangles, any number of threads, interleaving of single memory accesses, wantz = 0. Accesses to the volatile table and to memory are sequentially consistent in the model (the code has no fences); both parallel regions have the same number of threads; plasma_ceildiv is exact; zlarfx and zlarfg by their contracts."
  },
  {
   "property": "C73",
   "status": "proved",
   "theorems": [
    "Verif.Props.C73_bidiag",
    "Verif.Props.C73_DE",
    "Verif.Props.C73_first_element"
   ],
   "note": "All sizes and widths, both triangles, any number of threads and interleaving, real and complex. C73_first_element: without a real first element the comment that D and E are always real is false (A(0,0) = i alone gives D = E = 0). wantz = 0; exact arithmetic; zlarfg and zlarfx by their definitions; sequentially consistent accesses as in C72."
  },
  {
   "property": "C74",
   "status": "proved",
   "theorems": [
    "Verif.Props.C74_gesdd",
    "Verif.Props.C74_exists",
    "Verif.Props.C74_kernels"
   ],
   "note": "Singular values as Mathlib defines them (LinearMap.singularValues of the matrix as a map of Euclidean spaces). All sizes with nb <= min(m,n) (smaller matrices are rejected by plasma_zgesdd), tall and wide, every schedule, any number of threads. LAPACKE_dbdsdc is trusted: by contract it returns the singular values of the bidiagonal matrix; the other stages (C71, C72, C73) are proved. Hypotheses on the QR kernels (QrSpec, KReal) are proved for the modelled kernels (C74_kernels). No vectors; exact arithmetic."
  },
  {
   "property": "C75",
   "status": "partial",
   "theorems": [
    "Verif.Props.C75_partial",
    "Verif.Props.C75_panel_refuted",
    "Verif.Props.C75_history"
   ],
   "note": "Proved for all parameters except the number of panel threads. Refuted for that one: every successful call lowers it by one or two until it is one. Tuning off; allocations succeed."
  },
  {
   "property": "C76",
   "status": "partial",
   "theorems": [
    "Verif.Props.C76_accept_partial",
    "Verif.Props.C76_small_refuted",
    "Verif.Props.C76_memset"
   ],
   "note": "Proved for n > nb (and ldt >= 4*nb for plasma_zhetrf). Refuted for 1 <= n <= nb: the band descriptor with kl = ku = nb is illegal and the call returns PlasmaErrorIllegalValue. C76_memset: plasma_zhesv clears ldt*n elements of an array of 4*nb*n."
  },
  {
   "property": "C77",
   "status": "proved",
   "theorems": [
    "Verif.Props.C77_heswp",
    "Verif.Props.C77_threads",
    "Verif.Props.C77_disjoint"
   ],
   "note": "All sizes, tile sizes, pivots and numbers of ranks, every order of the exchanges between two barriers. uplo = PlasmaLower and incx = 1, the only case the code implements or uses; the pivots k1..k2 stay inside one tile, as its comment demands; the share of a rank, computed in floating point, is exact in the model."
  },
  {
   "property": "C78",
   "status": "proved",
   "theorems": [
    "Verif.Props.C78_aasen",
    "Verif.Props.C78_aasen_partial",
    "Verif.Props.aasen_two"
   ],
   "note": "Every execution that the dependences allow, with the descriptors that plasma_zhetrf and plasma_zhesv create; all sizes n > nb, tile sizes, numbers of panel threads and of workspace tiles. C78_aasen_partial is the statement for program order and n > 0. aasen_two shows that status zero occurs. The panel is the one of C22 (barriers, any order inside a phase); zheswp is by C77; exact arithmetic."
  },
  {
   "property": "C79",
   "status": "partial",
   "theorems": [
    "Verif.Props.C79_hesv_refuted",
    "Verif.Props.C79_hetrf_refuted",
    "Verif.Props.C79_identity_refuted",
    "Verif.Props.C79_decoupled_refuted",
    "Verif.Props.hesv_zero",
    "Verif.Props.hesv_two"
   ],
   "note": "Refuted: no execution of plasma_zhesv or plasma_zhetrf returns 0 if the block below the first tile is zero (identity, diagonal, block diagonal matrices), because LU of a block of zeros is treated as a failure although any L would do; the status is nb+1. What is true: the value is 0 if A is non-singular and no panel is rank deficient (hesv_zero); for order 2 with nb = 1 and A(1,0) not zero that is exactly non-singularity (hesv_two). For n <= nb see C76."
  },
  {
   "property": "C80",
   "status": "proved",
   "theorems": [
    "Verif.Props.C80_hesv",
    "Verif.Props.hesv_good",
    "Verif.Props.hesv_exists"
   ],
   "note": "All n > nb (n <= nb is refused, C76), any schedule. Hypotheses: ldt = 4*nb (else memory errors, C76_memset), zeros in pT where the tiles two above the diagonal are (the code reads pT), real diagonal, and n <= 4*nb when the sections of pzgbtrf are on (otherwise C64_sections_race). Exact arithmetic. hesv_good: all tasks local, inside the arrays and ordered; hesv_exists: executions exist."
  },
  {
   "property": "C81",
   "status": "proved",
   "theorems": [
    "Verif.Props.C81_hetrf",
    "Verif.Props.C81_hetrs",
    "Verif.Props.C81_round_trip",
    "Verif.Props.HFac.indep",
    "Verif.Props.hetrf_good",
    "Verif.Props.hetrf_exists",
    "Verif.Props.hetrs_good"
   ],
   "note": "All n > nb, any schedule of both calls. Hypotheses: ldt a multiple of nb and at least 4*nb, real diagonal, and n <= ldt when the sections of pzgbtrf are on (otherwise C64_sections_race). Exact arithmetic. Failure in spite of a non-singular matrix: C79_hetrf_refuted."
  },
  {
   "property": "C82",
   "status": "partial",
   "theorems": [
    "Verif.Props.C82_gbset_partial",
    "Verif.Props.C82_gbset_iff",
    "Verif.Props.C82_padding_refuted",
    "Verif.Props.C82_missed_refuted",
    "Verif.Props.C82_band_refuted",
    "Verif.Props.C82_underrun_refuted",
    "Verif.Props.C82_illegal"
   ],
   "note": "C82_gbset_iff: the claim holds exactly if kl+ku >= m, or (m <= n or kl+ku <= n) and (lda = m or ku >= min(m,n)-1). Refuted otherwise: with lda > m padding is overwritten and elements above a narrow band stay, for tall matrices with n < kl+ku < m band elements are cleared, and with kl >= n+2 memory in front of the array. No overflow of int."
  },
  {
   "property": "C83",
   "status": "proved",
   "theorems": [
    "Verif.Props.C83_lag2c",
    "Verif.Props.C83_lag2z",
    "Verif.Props.C83_round_trip",
    "Verif.Props.zlag2c_exists"
   ],
   "note": "General matrices, any schedule, any outcome: the theorem covers the executions that fail. LAPACK's zlag2c is modelled as its loop (stops at the first element that does not fit), clag2z as the map over the tile. The band branch of pzlag2c and pclag2z is not modelled; plasma_zlag2c and plasma_clag2z never take it."
  },
  {
   "property": "C84",
   "status": "proved",
   "theorems": [
    "Verif.Props.C84_posv",
    "Verif.Props.C84_gesv"
   ],
   "note": "Every schedule, every failing matrix: every tile of B is an output of a task that depends on the task that failed, so no tile of B is copied back. Nothing is assumed about data races, so zgesv is covered both with array sections of depend clauses matched by region and by address only (model: races interleave the element accesses of tasks)."
  },
  {
   "property": "C85",
   "status": "partial",
   "theorems": [
    "Verif.Props.C85_gbtrf",
    "Verif.Props.C85_gbsv",
    "Verif.Props.C85_hetrf",
    "Verif.Props.C85_hesv",
    "Verif.Props.C85_pbsv_partial",
    "Verif.Props.C85_pbsv_diag_refuted"
   ],
   "note": "zgbtrf, zgbsv, zhetrf, zhesv: full claim, every schedule, no assumption on races or on the padding of the band. zpbsv: proved with at least one off-diagonal or a single tile; refuted for diagonal matrices (kd = 0), where the tiles of the factorization are independent: nb = 1, diag(4,-1), an execution returns 2 after B(1) has been overwritten with the solution."
  },
  {
   "property": "C86",
   "status": "proved",
   "theorems": [
    "Verif.Props.C86_potrf",
    "Verif.Props.C86_schedule_refuted"
   ],
   "note": "C86_potrf: every failing execution, every schedule. C86_schedule_refuted: the contents are not a function of the arguments: nb = 1, [4 2; 2 -1], two executions returning 2, one with A(1,1) = 4 (unchanged) and one with 2 (factor)."
  },
  {
   "property": "C87",
   "status": "proved",
   "theorems": [
    "Verif.Props.C87_left",
    "Verif.Props.C87_right",
    "Verif.Props.C87_storage",
    "Verif.Props.C87_blocks"
   ],
   "note": "Every N, NE, nb >= 2, Vblksiz >= 1, numbers of threads and interleavings. The contents of V are a hypothesis (Stored: ones at the heads of the reflectors, zeros in all places of no reflector, as after the memset of plasma_omp_zgesdd and the stores of the kernels). zlarft by its LAPACK recurrence; exact arithmetic. WANTZ = 1, which plasma_zgesdd never uses, is not modelled."
  },
  {
   "property": "C88",
   "status": "partial",
   "theorems": [
    "Verif.Props.C88_work_partial",
    "Verif.Props.C88_work_refuted"
   ],
   "note": "Proved for 4*nb + ib >= 50. Refuted: nb = 8, ib = 4, order 200, one thread needs 400 elements of a workspace of 288 (heap overflow)."
  },
  {
   "property": "C89",
   "status": "proved",
   "theorems": [
    "Verif.Props.C89_factors",
    "Verif.Props.C89_DE",
    "Verif.Props.C89_svd",
    "Verif.Props.C89_threads",
    "Verif.Props.C89_safe",
    "Verif.Props.C89_exists"
   ],
   "note": "Every n >= 2, nb >= 2, Vblksiz >= 1, upper and lower, any number of threads and any interleaving; memory is sequentially consistent as in C72. zlarfg and zlarfx by their mathematical description over the real or complex numbers, exact arithmetic. C89_svd takes the contract of dbdsdc (bidiagonal = U Sigma V^H) as hypothesis and joins the bulge chasing with C87."
  },
  {
   "property": "C90",
   "status": "proved",
   "theorems": [
    "Verif.Props.C90_gesdd_vectors",
    "Verif.Props.C90_gesdd_compose"
   ],
   "note": "Every execution of the reduction and of the two applications; nb <= min(m,n) (otherwise C71). The steps in between are a hypothesis only as far as they keep A and T (they work on other arrays). C90_gesdd_compose takes the decomposition of the band matrix as hypothesis; C72, C87 and C89 are about that part. Exact arithmetic."
  },
  {
   "property": "C91",
   "status": "proved",
   "theorems": [
    "Verif.Props.C91_gesdd",
    "Verif.Props.C91_exists"
   ],
   "note": "Joins C71, C89, C87, C90 and the set-up of the vectors (memset, identity blocks, copy of the real vectors) into one statement about the arrays of the caller. LAPACKE_dbdsdc is not modelled: its contract (bidiagonal = RU*diag(S)*RVT with orthogonal factors, S the singular values in decreasing order) is part of the run. C91_exists: such runs exist for every matrix and any numbers of threads (a real singular value decomposition is constructed). nb <= min(m,n) (otherwise C71), Vblksiz = nb/4 >= 1; exact arithmetic."
  },
  {
   "property": "C92",
   "status": "partial",
   "theorems": [
    "Verif.Props.C92_writes_partial",
    "Verif.Props.C92_padding_cleared"
   ],
   "note": "C92_writes_partial: nothing is written outside of the ldu*Un, ldvt*n elements and the elements of A (the full claim if ldu = m and ldvt = VTm). Refuted otherwise: every call with vectors sets the rows between m and ldu (VTm and ldvt) of all columns to zero, because the memset covers ldu*Un and ldvt*n elements. The later phases keep to the elements (C90, and the frame conditions used in C92_padding_cleared)."
  },
  {
   "property": "C93",
   "status": "partial",
   "theorems": [
    "Verif.Props.C93_op_partial",
    "Verif.Props.C93_left_conj_refuted",
    "Verif.Props.C93_right_plain_refuted"
   ],
   "note": "Proved for (left, no transpose) and (right, conjugate transpose), the calls in plasma_zgesdd. Refuted for the other two: the blocks are traversed in the same order for all combinations, so every execution with (left, conjugate transpose) multiplies by Q and every one with (right, no transpose) by Q^H in an example of order 3 with real orthogonal Q."
  },
  {
   "property": "C94",
   "status": "partial",
   "theorems": [
    "Verif.Props.C94_positions_partial",
    "Verif.Props.C94_small_tile_refuted",
    "Verif.Props.C94_overflow_refuted"
   ],
   "note": "Proved for nb >= 4 and arrays V of at most 2^31 elements. Refuted: with nb < 4 Vblksiz is zero and every call divides by zero; with nb = 256 and min(m,n) = 60000 the position of the last reflector overflows int although the array is allocated with size_t arithmetic. plasma_ceildiv is modelled by exact division with the truncation of C."
  },
  {
   "property": "C95",
   "status": "partial",
   "theorems": [
    "Verif.Props.C95_resources_partial",
    "Verif.Props.C95_status_refuted",
    "Verif.Props.C95_leak_refuted",
    "Verif.Props.C95_null_tiles_refuted"
   ],
   "note": "Proved: failures of A, T and the workspace are reported, a call without failures computes the decomposition, and once these three are allocated every defined call leaves only T allocated. Refuted: any failed allocation inside plasma_omp_zgesdd and any failure of dbdsdc is returned as success; a failed T or workspace leaks A; a failed U or VT is accessed through NULL. Control flow only; a workspace is one block, and what the kernels and LAPACKE allocate is not modelled."
  }
 ]
}
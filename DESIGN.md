# Formal model of PLASMA in Lean 4 — design

Source: `/repo` (icl-utk-edu/plasma, C).  Properties: `properties.jsonl`.
Claims and theorem names: `MANIFEST.json`.  Mutation log: `seeded/LOG.jsonl`.

## 1. Architecture of the model

* **Schedules (`Verif/Sched.lean`).**  A program is a list of tasks in creation
  order; a task carries depend keys (base addresses with in/out mode), and a list
  of atomic events with read/write footprints on memory locations.  An execution
  is *any* interleaving of the events that keeps each task's own order and starts
  no task before the tasks it depends on have finished.  Two matching rules for
  depend items are considered: equality of base address (what OpenMP runtimes
  implement) and overlap of ranges.  `taskwait` is a barrier in the task list.
* **Descriptors (`Verif/Desc.lean`).**  `plasma_desc_t`, the init/check/view
  functions and the tile address arithmetic, in `Nat`/`Int` arithmetic (no 32-bit
  overflow).  Undefined behaviour (division by zero) is a separate outcome.
* **Tiles and memory (`Verif/Tile.lean`, `Verif/Layout.lean`).**  Memory is
  `Buf × Nat → α`.  A tile kernel reads whole operands through (base, ld) and
  writes operands through (base, ld).  The same task list is interpreted over raw
  memory and over an abstract tile store; a refinement theorem connects them using
  the injectivity of the descriptor's address map.  Column-major user arrays are
  just another layout, so `ge2desc`/`desc2ge` are ordinary tasks.
* **Kernels.**  Calls into CBLAS/LAPACK are modelled by their mathematical
  specification in exact arithmetic (trusted).  Kernels PLASMA implements itself
  (lacpy transposed variants, laset, geadd, tradd, geswp, amax, gessq/syssq
  accumulations, pivoted panel) are modelled loop by loop where stated.
* **Algorithms.**  Each `pz*.c` loop nest is a Lean function producing the task
  list with the same loop order, tile indices, dimensions, scalars.
* **Control.**  context.c state machine, async.c sequence status, barrier.c as a
  small-step transition system, tree.c generators, driver argument checks.

Scalars: a commutative (star) ring / field for the algebraic routines, `ℝ`/`ℂ`
for norms and Cholesky.  Floating point rounding is not modelled.

## 2. Plan per property

| Id | Model | Proof |
|----|-------|-------|
| C01,C02 | driver = ge2desc ++ pzgemm ++ desc2ge task list over memory | schedule theorem + refinement + loop invariant over k; frame from footprints |
| C03 | tile_addr/mmain/mview arithmetic | div/mod case analysis: injective, in range, surjective |
| C04 | pzge2desc/pzdesc2ge task lists | refinement theorem |
| C05,C06 | desc init/check as total functions with UB outcome | arithmetic; C06 is false (division before check): negation with witness + partial |
| C07 | desc_view | arithmetic |
| C08 | general trace theorem, any interleaving | induction on schedules by commuting disjoint events |
| C09–C14,C18–C20 | pz loop nests on tile store | block loop invariants to global matrix identities |
| C13 | pztrsm scalar -1/alpha | negation witness for the two nests, theorem for the others |
| C15,C16 | pzpotrf with kernel contract | loop invariant; first failing minor |
| C17,C24,C25 | composition of the above | algebra |
| C21 | geswp loops | permutation lemmas |
| C22,C43 | pzgetrf with panel contract | block LU invariant; C43 false as coded (offset added), witness |
| C23 | dependency graph of zgetrf | false for base-address matching: witness at 4x2 tiles; partial for what is ordered |
| C26–C29 | norm task lists + reductions | sums/maxima over tiles = over matrix |
| C30,C31 | aux kernels | pointwise; C31 false as coded (column n touched), witness |
| C32 | tree.c block greedy generator | invariant on counters NT/NZ |
| C33–C36 | op-list semantics; tile kernels modelled down to `zlarfg` (`House*.lean`) | induction on op list; C34 false for zungqr with k<n, C35 false: witnesses |
| C37 | composition | algebra |
| C38,C39 | barrier transition system | inductive invariant |
| C40 | context state machine | induction on history |
| C41 | driver argument checks | decision logic; deviations (getrs, pbtrs) witnessed |
| C42 | sequence status semantics | induction on schedule |
| C44,C45 | zcgesv control loop over abstract solver | induction; C45 false, witness |
| C46,C47 | band tiles | as C04, C15 |
| C64–C66 | pzgbtrf, pztbsm with interchanges on band tiles (`Gbtrf*.lean`, `TbsmP.lean`) | block invariant with band and fill-in limits; phases for the `taskwait`s; refutations in `Props/GbRace.lean` |
| C67, C68 | zgbmm: pzgb2desc, band branch of pzgemm (`Gbmm.lean`, `Props/Gbmm.lean`) | visited tiles = copied tiles = tiles holding a part of the band; sums over the other tiles vanish |
| C69, C70 | zlangb: pzpb2desc for rectangular matrices, pzlangb (`Langb.lean`, `Props/LangbVal.lean`, `Props/Langb.lean`) | positions in the work array are injective; the kernels' steps against the window of the band; witnesses for padding, leading dimension and wide matrices |
| C71 | zgesdd, first stage: pzge2gb, pzgecpy_tile2lapack_band (`Ge2gb.lean`, `Ge2gbBand.lean`, `Ge2gbGood.lean`, `Props/Gesdd.lean`) | invariant over the alternating QR and LQ steps: A is unitarily equivalent to the tiles masked to the band outside of the trailing block |
| C72 | pzgbbrd_static and core_zgbtype1cb/2cb/3cb, `wantz = 0` (`Bulge.lean`, `BulgeSched.lean`, `BulgeLegal.lean`, `BulgeKern.lean`, `BulgeExec.lean`, `Props/Gbbrd.lean`) | transition system of threads with a progress table; invariant (table entry = last sweep set, nothing overwritten too early); progress by the least unfinished block; kernels of blocks that are not ordered by the table have disjoint footprints or the same thread; then the trace theorem |
| C73 | the same, mathematics (`BulgeMath.lean`, `BulgeSweep.lean`, `BulgeFold.lean`, `Props/Bidiag.lean`) | each kernel is a unitary step; pattern of the matrix between the blocks of a sweep (band plus one bulge); lower case by conjugate transposition of the upper one |
| C74 | compute/zgesdd.c without vectors, from the user's `A` to `S` (`Svd.lean`, `Ge2gbReal.lean`, `Props/Gesvd.lean`) | C71 + C73 joined at the band array; characteristic polynomial of `Mᴴ M`; contract of `LAPACKE_dbdsdc` as hypothesis |
| C75,C76 | compute/zhetrf.c, compute/zhesv.c up to the creation of the descriptors (`Props/Hetrf.lean`) | case analysis over the checks of the descriptors; induction over the number of calls |
| C77 | core_blas/core_zheswp.c, lower triangle, incx = 1 (`Heswp.lean`, `Props/Heswp.lean`) | membership in the list of exchanges is decided by position, so any permutation of the list has one effect; induction over the pivots. `ell` is exact; an exchange of two elements is one action (no element belongs to two ranks, `C77_disjoint`) |
| C78,C79 | compute/pzhetrf_aasen.c, uplo = PlasmaLower (`Aasen.lean`, `AasenEff.lean`, `AasenMath.lean`, `AasenLow.lean`, `AasenProof.lean`, `Props/Aasen.lean`; tasks: `AasenTask.lean`, `AasenRun.lean`, `AasenProg.lean`, `AasenGood.lean`, `AasenCov.lean`, `AasenDep.lean`, `AasenExec.lean`, `AasenCode.lean`) | effect of each group of tasks as an equation on matrices; invariant "L*T*L^H = interchanged A on the finished part" by induction over the block columns; the panel by `panel_ok` of C22; every pair of conflicting tasks is joined by a chain of dependences, so every execution has the effect of the program order |
| C80,C81 | compute/zhesv.c, compute/zhetrs.c, compute/zhetrf.c after the checks (`Hetrs.lean`, `HetrsGood.lean`, `HesvCov.lean`, `HesvEnv.lean`, `HesvCore.lean`, `Hesv.lean`, `HesvSing.lean`, `Props/Hesv.lean`, `Props/Hetrs.lean`) | C78 joined with C64 at the band matrix T (dependences between the two task graphs), the six solves of zhetrs |
| C82 | compute/zgbset.c, every call of plasma_zlaset an execution of its tasks (`Props/Gbset.lean`) | union of the windows against the complement of the band |
| C83 | compute/zlag2c.c, compute/clag2z.c, general matrices (`Partial.lean`, `Props/Lag2.lean`) | the tasks of a failing execution that ran form a set closed under the dependences, and their effect is that of the sublist in program order (`GExec.partialC`, `gdrv_partial`) |
| C84 | compute/zposv.c, compute/zgesv.c, failing executions (`Touched.lean`, `Props/PosvFail.lean`) | the tasks started while the status was 0 are closed under the dependences and contain the failing task; no task of this set depends on the failing one, so locations whose writers test the status and depend on it are unchanged (`GExec.untouched`, `gdrv_untouched`). Programs with tasks that do not test the status and programs with races included. |
| C85 | compute/zgbtrf.c, zgbsv.c, zhetrf.c, zhesv.c, zpbsv.c, failing executions (`Order.lean`, `Props/BandFail.lean`, `Props/PbDiag.lean`) | copies back behind a barrier test the status (`GExec.late`); for zpbsv every tile of B depends on the failing task through the chain of updates (`C85_pbsv_partial`); executions in a chosen order (`Sch.fails`) give the counterexample for kd = 0 |
| C86 | compute/zpotrf.c, failing executions (`Props/PotrfFail.lean`, `Props/PotrfSched.lean`) | the executed tasks are an initial segment of the dependence order; a tile is copied back unchanged or final (`gdrv_partial`), final tiles of steps before the failing one are columns of the factor (`pkSteps_inv`); `Sch.fails` gives two executions with different results |
| C87,C88 | include/bulge.h, compute/pzlarft_blgtrd.c, compute/pzunmqr_blgtrd.c (WANTZ = 2), core_blas/core_zlarfb_gemm.c (`Blgtrd.lean`, `BlgtrdOrder.lean`, `BlgtrdKern.lean`, `BlgtrdRun.lean`, `Props/Blgtrd.lean`) | places of reflectors as mixed-radix numbers; block order and sweep order are linearizations of the same trace (`applied_eq`, by `Sched.trace`); a block is the product of its reflectors (`wyPre_prod`); threads as interleavings of their programs (`Inter`) |
| C89 | compute/pzgbbrd_static.c with wantz = 2, core_blas/core_zgbtype{1,2,3}cb.c, findVTpos (`BulgeVec.lean`, `BulgeVecExec.lean`, `Props/GbbrdVec.lean`) | kernels parametrised by the row of the reflector arrays (`sel`: parity of the sweep or the sweep itself); invariant inside a sweep (`Trk`) and over the sweeps (`Facs`) with explicit factors; places injective by C87; schedule as for C72 (`chase_exec_gen`) |
| C90 | compute/zgesdd.c:676-770, compute/pzge2gb.c, compute/pzunmqr.c, compute/pzunmlq.c (`Ge2gbVec.lean`, `Ge2gbApply.lean`, `Props/GesddVec.lean`) | the unitary matrices of C71 written as products of the reflectors found in the final `A` and `T` (`redQ`, `redP`: every step keeps the reflectors of the earlier ones), shown equal to the product that one flat tree over the whole matrix, or over the view shifted by one tile, applies |
| C91,C92 | compute/zgesdd.c:221-246, 404-770 (`Props/GesvdVec.lean`) | a run is the chain of the phases: reduction (C71), bulge chasing (C89), `sdInit` (memset, identity blocks, copied vectors), applications of C87 and C90, copy of `A`; the theorem composes them, the arrays outside the leading block are carried as identity; existence constructs a real singular value decomposition |
| C93 | compute/pzunmqr_blgtrd.c:38-50, 301-372 (`Props/BlgtrdOp.lean`) | C87 as a statement about matrices; with one real reflector per block the result does not depend on `trans`, so the executions of the other two combinations are those of C87 |
| C94 | include/bulge.h:28-66, compute/zgesdd.c:498 (`FindVT.lean`, `Props/FindVT.lean`) | `findVTpos` over the integers with a check of every intermediate result, undefined behaviour is `none`; refinement of the positions of C87 |
| C95 | compute/zgesdd.c:187-249, 400-780 (`GesddRes.lean`, `Props/GesddRes.lean`) | control flow of the allocations with an arbitrary pattern of failures: value returned, blocks still allocated, undefined behaviour; the numerical work is not part of this model |
| C48,C49 | bisection recursion over abstract count function | induction on interval; C49 false, witness |
| C50 | Sturm recurrence | false for split matrices: witness; partial otherwise |
| C51 | control flow of zstevx2 | false: witness |
| C52 | constants table | finite case analysis over the enumeration |
| C53 | workspace indexed by thread | false across differing team sizes / partial |
| C57 | panel pivot search and reduction over ranks | invariant: multipliers of eliminated columns dominated by their pivots |
| C58 | two executions | uniqueness of LU with partial pivoting without ties; witness with ties |
| C59 | triangular_create, band_create over the integers | link to the layouts used by the task models; witness for rectangular matrices |
| C61 | statement-level model of zpemv, ztsqrt, zttqrt, ztslqt, zttlqt; `Scheme`/`assemble` (`Fact.lean`) | refinement to Householder's algorithm column by column; witness for stale `T` down to `plasma_zgeqrf` |
| C62 | zgeqrs, zgelqs as tasks | algebra of C37 on factors kept from an earlier call; witness for m = 0 |
| C63 | getrf, trtri, getri_aux, geswp in one task list | first failing task among dependences; algebra of C25; witnesses for base matching and m > n |
| C60 | statement-level model of zpamm, zparfb, the block loops of the application kernels | entrywise sums against the product of block reflectors; refinement of the tasks |

## 3. Trusted base

Lean kernel (4.33.0), Mathlib; axioms `propext`, `Classical.choice`, `Quot.sound`
only.  Not modelled: floating-point rounding, 32-bit integer overflow, the OpenMP
runtime itself (only its documented ordering), weak memory (data-race-free task
bodies are justified by the footprint theorems; the word `sequence->status` is a plain
`int` in C, read and written by concurrent tasks, and atomic in the model), malloc failure unless stated,
CBLAS/LAPACK internals (contracts), the precision-generation scripts (only the
complex double `z` sources are read), Fortran bindings, test drivers, MAGMA/Lua
builds.

Failures (`Guard.lean`, `GExec.lean`): a `plasma_pz*` function that is called when the
status is already set creates no tasks.  The model creates all tasks and lets a waiting
task be dropped once the status is non-zero (`GStep.skip`), which covers both that case and
the guard `if (sequence->status == PlasmaSuccess)` inside the task.

Files of /repo and their place in the model (`z` sources; drivers are the files without `p`):

* Modelled as loop nests of tasks, statement by statement: pzgemm, pzsymm, pzhemm, pzsyrk, pzherk, pzsyr2k,
  pzher2k, pztrmm, pztrsm, pztrtri, pzlauum, pzpotrf, pzgetrf, pzgetri_aux, pzgeswp, pzgeqrf(_tree),
  pzunmqr(_tree), pzungqr(_tree), pzgelqf(_tree), pzunmlq(_tree), pzunglq(_tree), pzpbtrf, pzgbtrf, pztbsm
  (with and without pivots; the band LU drivers for square matrices), pzpb2desc, pzdesc2pb, pzge2desc, pzdesc2ge, pztr2desc, pzdesc2tr, pzlacpy, pzlaset, pzlascl,
  pzgeadd, pztradd, pzlange, pzlanhe, pzlansy, pzlantr, pzlangb, pzge2gb, pzgecpy_tile2lapack_band, pdzamax, pzlag2c (conversion result abstract), and the drivers around them.
* Modelled as threads with a progress table: pzgbbrd_static, without vectors (`wantz = 0`).
* Modelled statement by statement inside a task: core_zgetrf (panel), core_zgeswp, core_zpamm, core_zparfb,
  core_ztsmqr, core_zttmqr, core_ztsmlq, core_zttmlq, core_zunmqr, core_zunmlq, core_zpemv, core_ztsqrt,
  core_zttqrt, core_ztslqt, core_zttlqt, core_zgbtype1cb, core_zgbtype2cb, core_zgbtype3cb, core_zlacpy, the band copy
  kernels, plasma_zlaneg2, plasma_zstevx2 (bisection).
* Given by their result: the calls of CBLAS and LAPACK, and kernels that are one such call (core_zgemm, core_zherk,
  core_ztrsm, core_zpotrf, core_zlauum, core_ztrtri, norms).  The factorization kernels core_zgeqrt and core_zgelqt (LAPACK's
  zgeqr2, zlarft, zlarfb): Householder's algorithm, `HouseQr.lean`.  LAPACK's zlarfg in exact arithmetic, without the
  rescaling loop for tiny norms.
* Modelled: control/descriptor.c, control/tree.c, control/workspace.c, control/async.c, include/plasma_descriptor.h,
  argument checks of every compute driver.
* Not modelled: the band branch of pzlag2c and pclag2z, zgbtrf for rectangular matrices,
  LAPACKE_dbdsdc (its contract is part of the runs of C74 and C91), WANTZ = 1 and the unused branches of pzunmqr_blgtrd, control/version.c, control/context.c beyond the fields the
  drivers read.

## 4. Disagreements between code and documentation found

Each entry names the theorem that proves the disagreement about the model.

* `plasma_desc_*_init` divides by the tile size before `plasma_desc_check` can reject
  it (control/descriptor.c:134-175): `C06_zero_tile_ub`.
* `plasma_desc_general_check` accepts negative offsets (control/descriptor.c:284-319):
  `C54_negative_offset_accepted`.
* `plasma_desc_general_band_create` rejects half-bandwidths `>= n` that the band drivers
  declare legal: `C05_band_wide_rejected`.
* `lapack_constants` misses a comma after `"Rowwise"` (include/plasma_internal / control
  constants), shifting the entries behind it: `C55_shifted_constants`.
* `plasma_zsyrk`, `plasma_zherk`, `plasma_zsyr2k`, `plasma_zher2k` with `k = 0` and
  `beta != 1` leave `C` unscaled: `C09_zero_inner_ignored`, `C10_zero_inner_ignored`.
  (`pzgemm` treats that case separately, these loop nests do not.)
* `pztrsm` has no `alpha = 0` case: with a singular matrix the nests that pass `alpha`
  only to the first solve leave quotients `0/0` in `B` (`C13_singular`), and the two nests
  for Right with (Conj)Trans scale by `-1/alpha` (compute/pztrsm.c:238, 301,
  `C13_divides_by_alpha`).
* `plasma_core_zlacpy` with Lower and (Conj)Trans loops over `j <= imin(i, n)`: with `m > n`
  it reads and writes one column (row) too many (core_blas/core_zlacpy.c:81-83, 100-102):
  `C31_outside`.  Reachable through `plasma_omp_zlacpy` and the kernel, not through
  `plasma_zlacpy`, which requires `m = n` for transposed copies.
* Functions `plasma_omp_z*` report a NULL `sequence` or `request` through
  `plasma_request_fail(sequence, request, ..)`, which dereferences both pointers
  (control/async.c:17-25, e.g. compute/zpotrf.c:229-238): undefined behaviour instead of an
  error.  Not modelled.
* After a failed factorization the contents of `pA` depend on the schedule (some tiles may
  already have been copied back, compute/zpotrf.c:132-142); the returned value does not
  (`C16_potrf_info`).
* `plasma_zposv` with `nrhs = 0` returns before factoring `A` (compute/zposv.c:126,
  `imin(n, nrhs) == 0`); LAPACK's zposv still factors.
* `plasma_zlauum`: the reference kernel ignores imaginary parts of the diagonal, so the
  product of C18 is promised for real diagonals only.
* `plasma_ztrtri`: kernels of different diagonal tiles run concurrently, so with several
  zeros on the diagonal the returned index is one of them, not necessarily the first
  (`C19_trtri` states exactly this; the documentation does not promise more).
* Wrong argument numbers (`C41_<driver>_wrong`): ztrsm and ztrmm (`lda`, `ldb`), zlaset (`lda`),
  zgetrs (everything after `trans`), zpbtrs (`kd`, `nrhs`, `ldab`, `ldb`), zgbsv (`ldb`), zgbmm
  (`lda`, `ldb`, `ldc`), zcgbsv (`nrhs`, `ldab`, `ldb`, `ldx`; `kl`, `ku` unchecked), zhesv and zhetrs
  (`nrhs`, `lda`, `ldb`), zgesdd (`ldu`, `ldvt`), zgels (`trans` gives -103), zgeinv (`lda` compared
  with `n` although documented as `>= max(1,m)`).
* `plasma_zgesdd` returns -12, the number of `ldvt`, for legal arguments when the matrix is smaller
  than a tile: `C41_zgesdd_small`.
* `plasma_zgetrf` on a singular matrix returns `min(m,n) + i` instead of `i`, and does not copy the
  factors back (compute/zgetrf.c:90-102): `C43_getrf_singular_refuted`.  `plasma_zgesv` returns `i`
  (`C24_gesv_partial`); after such a failure `pA` may be partly overwritten, because tiles of the
  first panels may have been copied back already (compute/zgesv.c:103, one parallel region).
* `plasma_pzgetrf` builds an array section of negative length for the last block row
  (compute/pzgetrf.c, `a11` for `k = mt-1`); the model takes it as empty.
* `plasma_zlaneg2` treats a vanishing minor as positive.  It miscounts if the tested number is an
  eigenvalue (`[[0,1],[1,0]]`, u=1: returns 2, one eigenvalue is less) or if two consecutive leading
  minors vanish (`diag(2,1)`, u=2: returns 0, one eigenvalue is less): `C50_laneg2_refuted_*`.
* As a consequence `plasma_zstevx2` misses eigenvalues (`diag(2,1)`, range [1,2)) and, worse, writes
  past the end of `pVal`, `pMul` and `pVec` (`diag(8,24,16,16)`, range [10,24), k=1: index 1 is
  written): `C48_stevx2_refuted_*`.
* `plasma_zstevx2` by index writes at a negative index when a multiple eigenvalue straddles `il`
  (identity of order 2, il=iu=2: index -1): `C49_stevx2_refuted`.
* `plasma_zstevx2` with `PlasmaNoVec` dereferences NULL (`stein_arrays`) and runs QR on `pVec`:
  `C51_noVec_refuted`.  Also, the compression loop relies on `pMul` being zero initially, which
  neither the code nor the documentation of `pMul` provides (not modelled).
* `plasma_zgeinv` frees the matrix descriptor but never the work descriptor `W`
  (compute/zgeinv.c): memory leak.  Not modelled.
* `plasma_zgeinv` takes `m` and `n` and accepts `m != n`; with more tile rows than tile columns
  `pzgetri_aux` writes behind the `n`-by-`nb` workspace: `C63_geinv_rectangular_refuted`.  The message
  for a negative `m` speaks of `uplo` (compute/zgeinv.c:72-75).  The race of `pzgetrf` under base address
  matching is there too: `C63_geinv_order_refuted`.
* `plasma_pzgetrf` relies on the runtime treating array sections in `depend` clauses as ranges
  (compute/pzgetrf.c:140-146).  OpenMP runtimes match starting addresses.  Then the update of tile
  `(m,n)`, `2 <= m <= mt-2`, `n >= 1`, at step 0 is not ordered after the conversion of that tile to
  tile layout: a data race in `plasma_zgetrf` and `plasma_zgesv` (`C23_getrf_order_refuted`,
  `C23_gesv_order_refuted`), for all matrices with at least 4 tile rows and 2 tile columns and for no
  others (`C23_getrf_order_partial`).
* `plasma_omp_zlantr` documents `work` as output, but for the one, infinity and Frobenius norms the
  reduction also reads the entries of tiles outside the triangle, which no task writes
  (compute/pzlantr.c:119-125, 164-170, 208-212); the result is right only if the caller clears the
  array, as `plasma_zlantr` does with `calloc` (compute/zlantr.c:147-162): `C56_dirty_work_refuted`.
  The documented size for the infinity norm, `A.mt*A.n + A.n`, should be `A.nt*A.m + A.m`.
* The norm functions pass the address of a local variable (`&stub`) to tasks that may outlive it
  (compute/pzlange.c:36, 53); the kernel never uses it for the max norm.  Not modelled.
* `plasma_workspace_create` sizes the array of per-thread buffers in one parallel region and fills it in
  another (control/workspace.c); kernels index it with `omp_get_thread_num()` of a third one.  Nothing
  makes the team sizes agree (`OMP_DYNAMIC`, a changed `omp_set_num_threads`, nested regions): a larger
  second team writes out of bounds, a larger third team reads out of bounds or gets NULL:
  `C53_refuted_creation`, `C53_refuted_outside`, `C53_refuted_null`.  With a task team no larger than the
  others no two threads ever share a buffer (`C53_buffers_partial`).
* `plasma_zcgesv` and `plasma_zcposv` do not fall back to double precision when the single-precision
  conversion or factorization fails: the failure is recorded in the same sequence, all later tasks are
  skipped, the solution is not written and a positive status is returned: `C45_refuted`,
  `C45_refuted_underflow`, `C45_refuted_overflow`.  In addition `conv` then reads `Rnorm` and `Xnorm`, which
  are uninitialised (compute/zcgesv.c:462-470; not modelled: the model keeps the old values).
* In the same functions the array `work` is read by the reduction task of `plasma_pzlange` (`pzlanhe`), whose
  depend item starts at `work`, and written by the tasks of `plasma_pdzamax`, whose items start at
  `&work[A.n*m+n*A.nb]` (compute/zcgesv.c:419-426, 458; compute/pdzamax.c:41-47).  No taskwait separates
  them; runtimes that match starting addresses do not order them.  Not modelled (`C44_*_partial` execute the
  tasks between two taskwaits in program order).
* `plasma_zungqr` with `k < n` promises `m` by `n` orthonormal columns; the descriptor of `Q` has `k` columns
  (compute/zungqr.c:123-130), columns `k..n-1` of `pQ` are never written: `C34_ungqr_refuted`.
* In tree mode `plasma_zunmqr` and `plasma_zungqr` recompute the list of operations from the current number of
  threads, and read the `T` tiles of that list, some of which the factorization may never have written
  (compute/pzunmqr_tree.c, compute/pzungqr_tree.c): a different number of threads gives a different `Q`:
  `C35_refuted`.
* `plasma_zunglq` with `k < m` has the same defect for rows `k..m-1` (compute/zunglq.c:123-130):
  `C36_unglq_refuted`.
* `plasma_zgels` documents the residual sum of squares as the sum of squares of the trailing elements of each
  column of `B`.  With no unknowns (`n = 0`, or `m = 0` and ConjTrans) the residual is `B` itself, but the quick
  return zeroes `B` (compute/zgels.c:157-162): `C37_residual_refuted`.  On every quick return (also `nrhs = 0`)
  `T` is never created, although the caller is told to destroy it, and `A` is not factored.
* General band storage (`plasma_zgbtrf`, `plasma_zgbsv`): the drivers accept `ldab >= kl+ku+1`
  (compute/zgbtrf.c), but the copy kernels move whole tiles around the diagonal and up to `kl+nb` rows of
  fill-in (core_blas/core_omp_zlacpy_lapack2tile_band.c and its inverse).  With such a leading dimension
  different columns of the user's array overlap: two threads write the same element with different values, and
  the stored band is not restored: `C46_general_aliases`.
* The same kernels compute a negative last column for some tiles of a matrix with `m < n`, and the zero fill then writes in front of the tile: `C46_general_underrun`.
* `pzdesc2pb` with Upper starts its loop at `ku+kl` instead of `ku` (compute/pzdesc2pb.c): it creates extra
  copy tasks with tile addresses outside the band; they copy nothing (`t2l_extra`), but forming the address
  is outside the array.
* `plasma_zpbtrf` and `plasma_zpbsv` with `kd = 0`: the tasks factoring the diagonal tiles are unordered, so for a
  matrix that is not positive definite the returned value depends on the schedule and need not be the first
  failing order (compute/pzpbtrf.c): `C47_diagonal_any`, `C47_diagonal_refuted`.
* The band LU drivers copy whole diagonal tiles and the rows for fill-in from the user's array and factor what is
  there.  The documentation does not ask for zeros next to the band; with other values the factored matrix is not
  the user's: the identity can be reported singular, `C64_padding_refuted`.  The smallest leading dimension that
  `plasma_zgbsv` accepts lets elements of a tile share an address: `C64_ldab_alias`.
* `pzgbtrf` computes the length of its `depend` sections from `A.gm`, the rows of the band storage, minus `k*A.mb`
  (compute/pzgbtrf.c:48,106); for a long matrix this is zero or negative.  A runtime that matched sections by the
  storage they name would not order the later panels after the updates: `C64_sections_race`.  (With the starting
  address, as existing runtimes do, all conflicts are ordered: `C64_gbsv_partial` with `rg = false`.)
* `pzgbtrf` with `kl = ku = 0`: the panels are unordered and the value returned for a singular matrix depends on the
  schedule: `C65_diagonal_refuted`.  The task adjusting the pivots declares `ipiv` as `in` although it writes it
  (compute/pzgbtrf.c:153); `gbLab_step` shows that the updates of the step still come before it.
* `plasma_pztbsm` with `alpha != 1` scales only the tiles within the band of the first diagonal tile
  (compute/pztbsm.c); every caller passes 1.  Not part of a property.
* `plasma_omp_zpbsv` with a wrong `uplo` returns without setting the sequence status (compute/zpbsv.c:254-258).
* With ties in a pivot column the pivots and factors of `plasma_zgetrf` depend on
  `max_panel_threads`: each rank takes the first largest entry among its own tile rows
  `rank, rank+size, ...`, and the ranks are compared with a strict `>`
  (core_blas/core_zgetrf.c:46-84): `C58_threads_refuted`.
* `plasma_desc_triangular_create` with `lm != ln` (a message is printed) or `mb != nb` (nothing is
  printed) reports success although the stored tiles do not fit into the allocation
  (control/descriptor.c:108-112, 219-222): `C59_rectangular_refuted`.
* `plasma_core_ztsmlq` and `plasma_core_zttmlq` from the right store as many rows in the workspace as `A1` has, but
  document, check and pass a leading dimension of `n1` (core_blas/core_ztsmlq.c:198, 273, core_blas/core_zttmlq.c:196,
  277): with more rows than columns BLAS rejects the call.  The tile algorithms only use tiles with `m1 <= n1` there:
  `C60_lq_right_refuted`.
* `plasma_core_zpemv` returns at once for `alpha = beta = 0`, leaving `y` instead of zeroing it
  (core_blas/core_zpemv.c:165-166, documented `y = alpha op(A) x + beta y`): `C61_pemv_refuted`.  `plasma_core_zttqrt` and
  `plasma_core_zttlqt` call it with `alpha = -tau`, `beta = 0` to make a column of `T` (core_blas/core_zttqrt.c:199,
  core_blas/core_zttlqt.c:195).  If a reflector inside an inner block has `tau = 0` (its column is already eliminated), that
  column keeps what `T` held before, is multiplied by the block so far, and enters the block reflector.  `T` comes from
  `plasma_descT_create`, which does not set it (control/descriptor.c:400; the `laset` in the kernel is commented out with a
  TODO, core_blas/core_zttqrt.c:143-145).  So in tree mode `plasma_zgeqrf`, `plasma_zgelqf` and `plasma_zgels` can return a
  wrong factor: `C61_ttqrt_refuted`, `C61_ttlqt_refuted`, `C61_geqrf_stale`.  `ztsqrt` and `ztslqt` use `cblas_zgemv` and are
  right for any `T`: `C61_tsqrt`, `C61_tslqt`.  Therefore C33, C34, C36, C37 are proved in tree mode for a zeroed `T` only.
* `plasma_zgelqs` with `m = 0` returns at once and leaves `B`; the minimum norm solution of an empty system is zero, and
  `plasma_zgels` stores zeros in this case (compute/zgelqs.c:106-107): `C62_gelqs_refuted`.
* `plasma_zgbmm` copies and multiplies whole tiles: elements of the array outside the band are used if they share a tile
  with an element of the band, so the result of a call with non-zeros there depends on `nb`
  (compute/pzgb2desc.c:54-64, compute/pzgemm.c:160-200): `C67_outside_band_refuted`.  The documentation does not say that they must be zero.
* `plasma_zgbmm` compares `kl` with `m` and `ku` with `k` although `A` is `k x m` when transposed, and rejects every call with
  `m = 0`, documented as legal (compute/zgbmm.c:151-158): `C68_args_refuted`.  When the loop over `k` is empty it names the tile
  `A(m, 0)`, which need not be stored, in a call with `alpha = 0` (compute/pzgemm.c:190-205); BLAS does not read it.
* `plasma_zlangb` converts with the layout of a factored band (`kl+ku` rows above the diagonal, core_blas/core_zlacpy_band.c:60-64
  through compute/pzpb2desc.c), but checks `ldab >= 1+kl+ku` and documents `ldab >= max(1,m)` (compute/zlangb.c:66, 115): with
  the smallest accepted `ldab` it reads behind the array: `C69_ldab_refuted`.  The fill-in rows and whatever shares a tile with the
  band count as elements of the matrix: `C69_langb_tiles` says exactly which, `C69_outside_band_refuted` gives a zero matrix with norm 1.
  Widths as large as the matrix pass the checks; then the error code of the descriptor is returned as the norm: `C69_width_refuted`.
* For a general band matrix that is wider than high, `plasma_core_zlacpy_lapack2tile_band` can compute a negative `j_end` and
  zero-fills columns left of its tile, memory that belongs to another tile and is not in the task's depend list
  (core_blas/core_zlacpy_band.c:64, 107-111): `C70_convert_iff` says for which sizes, `C70_wide_refuted`.
* `plasma_zlangb` does not destroy its descriptor when the allocation of `work` fails (compute/zlangb.c:170-173).  Not part of a property.
* `plasma_omp_zgesdd` accepts matrices smaller than one tile and takes `nb = imin(A.mb, minmn)` for the band array and the bulge
  chasing, but `plasma_pzgecpy_tile2lapack_band` takes `nb = A.mb` (compute/zgesdd.c:404, compute/pzgecpy_tile2lapack_band.c:46):
  an upper band is copied `A.mb - minmn` places too far (`C71_band_disagree`), so the singular values of a 1-by-1 matrix in
  2-by-2 tiles come out as zero.  `plasma_zgesdd` itself rejects `min(m,n) < nb`, which is documented as legal, with -12 and the
  message "nb < imin(m, n) not supported" (compute/zgesdd.c:182-185).
* `plasma_pzgbbrd_static` synchronises by `volatile int` without atomics or fences, a data race in C11 and in the OpenMP memory
  model (compute/pzgbbrd_static.c:30-39, 88): C72 assumes sequentially consistent accesses.  All threads of the first parallel
  region write the shared `cores_num` (compute/pzgbbrd_static.c:83-86), a race on equal values; the second region must get as many
  threads, or blocks have no owner and the rest waits for ever.  The result of `malloc` is not checked (88).
* "D and E are always real after the bulgechasing" (compute/pzgbbrd_static.c:184-185): the first diagonal element is never touched, so
  this needs a real first element (`C73_first_element`).  `plasma_pzge2gb` leaves one, so `plasma_zgesdd` is not affected.
* `plasma_zhetrf`, `plasma_zhesv` store a smaller `max_panel_threads` in the context on every call and do not restore it
  (compute/zhetrf.c:129-136, compute/zhesv.c:135-142): `C75_panel_refuted`, `C75_history`.
* The same functions refuse matrices with `1 <= n <= nb`, because the band descriptor of `T` is created with `kl = ku = nb`
  (compute/zhetrf.c:151, compute/zhesv.c:165, control/descriptor.c:335-342): `C76_small_refuted`.  `plasma_zhetrf` needs
  `ldt >= 4*nb`, which the documentation does not say; `plasma_zhesv` clears `ldt*n` elements of an array with `4*nb*n`
  (compute/zhesv.c:203): `C76_memset`.  `plasma_zhesv` copies the output argument `pT` into the tiles of `T` before the factorization.
* `plasma_pzhetrf_aasen`: a panel whose block is rank deficient is reported as a failure (compute/pzhetrf_aasen.c, panel
  task), although the factorization exists with any choice of the pivot.  The identity of order n > nb, every diagonal matrix and
  every block diagonal matrix with a first block of order nb is refused with status nb+1: `C79_identity_refuted`,
  `C79_decoupled_refuted`; for the drivers, under every schedule, `C79_hesv_refuted`, `C79_hetrf_refuted`.
* `plasma_zhesv`: `A` and `T` are documented as in,out with the details of the factorizations, but they are not converted back
  (compute/zhesv.c:226-232), so `pA`, `pT` are unchanged and only `ipiv`, `ipiv2`, `B` are written (`C80_hesv`).  `pT`, documented as
  output, is read (compute/zhesv.c:211), so it must be cleared by the caller; the test does that with `calloc`
  (test/test_zhesv.c:90-91).  Positive return values are not documented.
* `plasma_zhetrf` writes whole tiles of `A` on and below the diagonal, so the part of `pA` above the diagonal inside the diagonal tiles, which
  the documentation calls "not referenced", is overwritten (`C81_hetrf` says exactly which elements may change).
* `plasma_zgbset` clears with a window of columns of length `m-kl-ku` at distance `lda+1` (compute/zgbset.c:50, 93), which reaches the top
  of the next column only if `lda = m`: `C82_padding_refuted`, `C82_missed_refuted`.  For tall matrices the number `kl-1` of the diagonals
  cleared in the upper corner (compute/zgbset.c:52, 66-70) is too large if `kl+ku > n`: band elements are lost (`C82_band_refuted`),
  and with `kl >= n+2` the address is in front of the array (`C82_underrun_refuted`).
* `plasma_zlag2c` returns 1 if an element overflows (`C83_lag2c`); compute/zlag2c.c:49 documents `PlasmaSuccess` as the only return value,
  and pAs then holds converted tiles next to old ones.
* `plasma_zpbsv` with kd = 0 and more than one tile: the tiles of the diagonal matrix are factored and the right-hand sides solved independently, so a call that returns an error may already have overwritten part of B with the solution (`C85_pbsv_diag_refuted`); with kd >= 1 B is never changed by a failing call.
* `plasma_zpbtrf` and `plasma_zpbsv`: the tasks of the band conversions do not test the status (core_blas/core_zlacpy_band.c:115-127,212-225), unlike all others; after a failure AB may hold any mixture of the matrix and its partial factor. The drivers of the general band and the indefinite solvers call the conversion behind a barrier, where `plasma_pzdesc2pb` itself returns at once after a failure, so their matrices are unchanged (`C85_gbtrf`, `C85_hetrf`): neither is the LAPACK convention of returning the partial factor.
* `plasma_zpotrf`: on failure LAPACK's zpotrf leaves the leading factor and the updated rest in A. Here A is a mixture of original and factor elements that depends on the schedule, because the copies back run beside the factorization and stop when the status is set (`C86_potrf`, `C86_schedule_refuted`); the comment of the function does not say so.
* `plasma_pzunmqr_blgtrd` with small tiles: a chunk has up to 200 columns whatever nb, so `plasma_core_zlarfb_gemm` writes up to 200*(nb/4) elements of a workspace of ib*nb + 4*nb*nb; with nb = 8, ib = 4, order 200 and one thread this is a heap overflow (`C88_work_refuted`).
* `plasma_omp_zgesdd` with vectors and nb < 4: `vblksiz = nb/4` is zero (compute/zgesdd.c:498); `findVTsiz` converts an infinite quotient to int and `findVTpos` divides by zero (include/bulge.h:48,57,74). The theorems on C87 assume Vblksiz >= 1.
* `plasma_pzunmqr_blgtrd`: the blocks are traversed from the last to the first for both sides and both values of trans (`versionL` is fixed to 113, the branches for versions 91, 92 and 114 are never reached). This is right for (left, no transpose) and (right, conjugate transpose), the two calls in the library; for the other two combinations the comment at compute/pzunmqr_blgtrd.c:38-50 promises the opposite order: `C93_left_conj_refuted`, `C93_right_plain_refuted`.
* `plasma_omp_zgesdd`: failed allocations and a failed `LAPACKE_dbdsdc` go to `cleanup` without setting the status of the
  sequence, so `plasma_zgesdd` returns success (compute/zgesdd.c:458-468, 622, 655): `C95_status_refuted`; when `T` or the workspace cannot be
  allocated the tile matrix `A` is not freed (compute/zgesdd.c:199-211): `C95_leak_refuted`; the results of `plasma_desc_general_create` for
  `U` and `VT` are not checked (compute/zgesdd.c:682, 737): `C95_null_tiles_refuted`; illegal `jobu`/`jobvt` return without failing the
  request (compute/zgesdd.c:364-376); `vblksiz = nb/4` is zero for `nb < 4` and `findVTpos` divides by it when vectors are wanted
  (compute/zgesdd.c:498, include/bulge.h).
* `plasma_omp_zgesdd` with vectors clears the rows of the arrays `U` and `VT` between the number of rows and the leading dimension
  (`memset` of `ldu*Un` and `ldvt*n` elements, compute/zgesdd.c:601-603): `C92_padding_cleared`.  A caller whose `U` is part of a
  larger array loses the rows below.
* `findVTpos` (include/bulge.h:38-66): divides by `Vblksiz = nb/4`, which is zero for tile sizes below 4: `C94_small_tile_refuted`; the
  positions are `int` and overflow for `min(m,n) = 60000` with `nb = 256`, although the arrays are allocated with `size_t`:
  `C94_overflow_refuted`.

/-
The drivers `plasma_zhesv`, `plasma_zhetrf` and `plasma_zhetrs`.
-/
import Verif.HesvCore

set_option linter.unusedSectionVars false

namespace Verif.Tile

open Verif.Layout Verif.Sched Verif.LU Verif.Panel Verif.Aasen

universe v w

section
variable {α : Type v} [Field α] [StarRing α] [DecidableEq α] {γ : Type w} [LinearOrder γ]

/-- Memory when the first parallel region starts (compute/zhesv.c:197-200, compute/zhetrf.c:176-179).  The size of the `memset` of `T` is
`ldt*n`; for `plasma_zhetrf` that is all of `T`, for `plasma_zhesv` it is if `ldt = 4*nb`, and for a larger `ldt` it is more than all
of `T`, a memory error. -/
def heInit (E : IntCode α) (p : HPar) (mem : Buf × Nat → α) : Buf × Nat → α
  | (.til 0, _) => 0
  | (.til 5, _) => 0
  | (.usr 4, i) => if i < p.nb then E.enc (1 + i) else mem (.usr 4, i)
  | x => mem x

/-- `plasma_omp_zhesv` after its checks (compute/zhesv.c:337-391). -/
noncomputable def ompZhesv (rg : Bool) (E : IntCode α) (mag : α → γ) (dv : α → α → α) (big : α → Bool) (z : AC) (Z : AM Buf) (Q B : TMat Buf) :
    List (GTTask (Buf × Nat × Nat) α) :=
  if Z.A.d.n = 0 ∨ B.d.n = 0 then [] else
    phG 1 (hetrfL rg E mag dv big z.ib z.mpt z Z Q) ++ okT (hetrsL 1 rg E dv Z.A Z.T Z.P Q B)

/-- Parameters of `plasma_zhesv` (compute/zhesv.c:146-170): four tile rows for `T`. -/
def hvPar (nb n nrhs lda ldb : Nat) : HPar := ⟨nb, n, nrhs, lda, 4 * nb, ldb, 4⟩

/-- `plasma_zhesv` after its checks, with `PlasmaLower`, from the first parallel region on (compute/zhesv.c:202-232).  `ib` is the inner
block size, `mpt` the number of threads of a panel, `mth` the number of threads. -/
noncomputable def zhesv (rg : Bool) (E : IntCode α) (mag : α → γ) (dv : α → α → α) (big : α → Bool) (ib mpt mth : Nat) (p : HPar) :
    List (GTTask (Buf × Nat × Nat) α) :=
  okT (p.inA ++ pzpb2desc none p.uT p.tT ++ pzge2desc p.uB p.tB) ++
    ompZhesv rg E mag dv big (p.cfg ib mpt mth) p.mats p.uQ p.tB ++
    okT ((pzdesc2ge p.tB p.uB).map (phT (6 + 2 * (p.tB.d.mt * p.tB.d.nt))))

/-- `plasma_omp_zhetrf` after its checks (compute/zhetrf.c:318-325). -/
noncomputable def ompZhetrf (rg : Bool) (E : IntCode α) (mag : α → γ) (dv : α → α → α) (big : α → Bool) (z : AC) (Z : AM Buf) (Q : TMat Buf) :
    List (GTTask (Buf × Nat × Nat) α) :=
  if Z.A.d.m = 0 then [] else phG 1 (hetrfL rg E mag dv big z.ib z.mpt z Z Q)

/-- `plasma_zhetrf` after its checks, with `PlasmaLower`, from the first parallel region on (compute/zhetrf.c:182-215). -/
noncomputable def zhetrf (rg : Bool) (E : IntCode α) (mag : α → γ) (dv : α → α → α) (big : α → Bool) (ib mpt mth : Nat) (p : HPar) :
    List (GTTask (Buf × Nat × Nat) α) :=
  okT p.inA ++ (ompZhetrf rg E mag dv big (p.cfg ib mpt mth) p.mats p.uQ ++ okT []) ++
    okT ((p.outA ++ pzdesc2pb none p.tT p.uT).map (phT 2))

/-- `plasma_zhetrs` after its checks, with `PlasmaLower` (compute/zhetrs.c:173-205, 303-355): no task can fail. -/
def zhetrs (rg : Bool) (E : IntCode α) (dv : α → α → α) (p : HPar) : List (TTask (Buf × Nat × Nat) α) :=
  (p.inA ++ pzpb2desc none p.uT p.tT ++ pzge2desc p.uB p.tB) ++
    (if p.tA.d.n = 0 ∨ p.tB.d.n = 0 then [] else hetrsL 1 rg E dv p.tA p.tT p.uP p.uQ p.tB) ++
    (pzdesc2ge p.tB p.uB).map (phT (6 + 2 * (p.tB.d.mt * p.tB.d.nt)))

end

end Verif.Tile

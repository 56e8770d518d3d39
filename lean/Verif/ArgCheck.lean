/-
Argument checks of the drivers `plasma_z*`, as they are written in compute/*.c.
Each definition returns 0 if control reaches the code after the checks, and otherwise
the value returned.  Arguments that no check looks at (pointers, scalars, descriptors) are
left out of the definitions.  32-bit overflow of sums like `1+kl+ku` is not modelled.
-/
import Mathlib.Algebra.Order.Group.Unbundled.Int

namespace Verif.ArgCheck

/-! Enumeration values (include/plasma_types.h:72-114). -/
abbrev NoTrans : Int := 111
abbrev Trans : Int := 112
abbrev ConjTrans : Int := 113
abbrev Upper : Int := 121
abbrev Lower : Int := 122
abbrev General : Int := 123
abbrev NonUnit : Int := 131
abbrev Unit : Int := 132
abbrev Left : Int := 141
abbrev Right : Int := 142
abbrev OneNorm : Int := 171
abbrev FrobeniusNorm : Int := 174
abbrev InfNorm : Int := 175
abbrev MaxNorm : Int := 177
abbrev NoVec : Int := 301
abbrev AllVec : Int := 305
abbrev SomeVec : Int := 306
abbrev Columnwise : Int := 401
abbrev Rowwise : Int := 402

/-- What the checks of `plasma_zlascl` see of a double (compute/zlascl.c:43-50). -/
structure Dbl where
  isZero : Bool
  isNaN : Bool

/-- Argument checks of `plasma_dzamax` (compute/dzamax.c:32-48). -/
def dzamaxArgs (colrow m n lda : Int) : Int :=
  if colrow ≠ Columnwise ∧ colrow ≠ Rowwise then -1 else
  if m < 0 then -2 else
  if n < 0 then -3 else
  if lda < max 1 m then -5 else
  0

/-- Argument checks of `plasma_zcgbsv` (compute/zcgbsv.c:124-144). -/
def zcgbsvArgs (n kl ku nrhs ldab ldb ldx : Int) : Int :=
  if n < 0 then -1 else
  if nrhs < 0 then -2 else
  if ldab < max 1 (1+kl+ku) then -4 else
  if ldb < max 1 n then -7 else
  if ldx < max 1 n then -9 else
  0

/-- Argument checks of `plasma_zcgesv` (compute/zcgesv.c:119-139). -/
def zcgesvArgs (n nrhs lda ldb ldx : Int) : Int :=
  if n < 0 then -1 else
  if nrhs < 0 then -2 else
  if lda < max 1 n then -4 else
  if ldb < max 1 n then -7 else
  if ldx < max 1 n then -9 else
  0

/-- Argument checks of `plasma_zcposv` (compute/zcposv.c:128-152). -/
def zcposvArgs (uplo n nrhs lda ldb ldx : Int) : Int :=
  if uplo ≠ Upper ∧ uplo ≠ Lower then -1 else
  if n < 0 then -2 else
  if nrhs < 0 then -3 else
  if lda < max 1 n then -5 else
  if ldb < max 1 n then -7 else
  if ldx < max 1 n then -9 else
  0

/-- Argument checks of `plasma_zgbmm` (compute/zgbmm.c:125-189). -/
def zgbmmArgs (transa transb m n k kl ku lda ldb ldc : Int) : Int :=
  if transa ≠ NoTrans ∧ transa ≠ Trans ∧ transa ≠ ConjTrans then -1 else
  if transb ≠ NoTrans ∧ transb ≠ Trans ∧ transb ≠ ConjTrans then -2 else
  if m < 0 then -3 else
  if n < 0 then -4 else
  if k < 0 then -5 else
  if kl < 0 ∨ kl > m - 1 then -6 else
  if ku < 0 ∨ ku > k - 1 then -7 else
  if lda < max 1 (if transa = NoTrans then m else k) then -8 else
  if ldb < max 1 (if transb = NoTrans then k else n) then -10 else
  if ldc < max 1 m then -13 else
  0

/-- Argument checks of `plasma_zgbsv` (compute/zgbsv.c:74-98). -/
def zgbsvArgs (n kl ku nrhs ldab ldb : Int) : Int :=
  if n < 0 then -1 else
  if kl < 0 then -2 else
  if ku < 0 then -3 else
  if nrhs < 0 then -4 else
  if ldab < max 1 (1+kl+ku) then -6 else
  if ldb < max 1 n then -8 else
  0

/-- Argument checks of `plasma_zgbtrf` (compute/zgbtrf.c:65-84). -/
def zgbtrfArgs (m n kl ku ldab : Int) : Int :=
  if m < 0 then -1 else
  if n < 0 then -2 else
  if kl < 0 then -3 else
  if ku < 0 then -4 else
  if ldab < max 1 (1+kl+ku) then -6 else
  0

/-- Argument checks of `plasma_zgbtrs` (compute/zgbtrs.c:93-123). -/
def zgbtrsArgs (trans n kl ku nrhs ldab ldb : Int) : Int :=
  if trans ≠ NoTrans ∧ trans ≠ Trans ∧ trans ≠ ConjTrans then -1 else
  if n < 0 then -2 else
  if kl < 0 then -3 else
  if ku < 0 then -4 else
  if nrhs < 0 then -5 else
  if ldab < max 1 (1+kl+ku) then -7 else
  if ldb < max 1 n then -10 else
  0

/-- Argument checks of `plasma_zgeadd` (compute/zgeadd.c:102-145). -/
def zgeaddArgs (transa m n pA lda pB ldb : Int) : Int :=
  if transa ≠ NoTrans ∧ transa ≠ Trans ∧ transa ≠ ConjTrans then -1 else
  if m < 0 then -2 else
  if n < 0 then -3 else
  if pA = 0 then -5 else
  if lda < max 1 (if transa = NoTrans then m else n) then -6 else
  if pB = 0 then -8 else
  if ldb < max 1 m then -9 else
  0

/-- Argument checks of `plasma_zgeinv` (compute/zgeinv.c:71-83). -/
def zgeinvArgs (m n lda : Int) : Int :=
  if m < 0 then -1 else
  if n < 0 then -2 else
  if lda < max 1 n then -4 else
  0

/-- Argument checks of `plasma_zgelqf` (compute/zgelqf.c:82-94). -/
def zgelqfArgs (m n lda : Int) : Int :=
  if m < 0 then -1 else
  if n < 0 then -2 else
  if lda < max 1 m then -4 else
  0

/-- Argument checks of `plasma_zgelqs` (compute/zgelqs.c:83-103). -/
def zgelqsArgs (m n nrhs lda ldb : Int) : Int :=
  if m < 0 then -1 else
  if n < 0 ∨ m > n then -2 else
  if nrhs < 0 then -3 else
  if lda < max 1 m then -5 else
  if ldb < max 1 (max 1 n) then -8 else
  0

/-- Argument checks of `plasma_zgels` (compute/zgels.c:129-154). -/
def zgelsArgs (trans m n nrhs lda ldb : Int) : Int :=
  if trans ≠ NoTrans ∧ trans ≠ ConjTrans then -103 else
  if m < 0 then -2 else
  if n < 0 then -3 else
  if nrhs < 0 then -4 else
  if lda < max 1 m then -6 else
  if ldb < max 1 (max m n) then -9 else
  0

/-- Argument checks of `plasma_zgemm` (compute/zgemm.c:118-174). -/
def zgemmArgs (transa transb m n k lda ldb ldc : Int) : Int :=
  if transa ≠ NoTrans ∧ transa ≠ Trans ∧ transa ≠ ConjTrans then -1 else
  if transb ≠ NoTrans ∧ transb ≠ Trans ∧ transb ≠ ConjTrans then -2 else
  if m < 0 then -3 else
  if n < 0 then -4 else
  if k < 0 then -5 else
  if lda < max 1 (if transa = NoTrans then m else k) then -8 else
  if ldb < max 1 (if transb = NoTrans then k else n) then -10 else
  if ldc < max 1 m then -13 else
  0

/-- Argument checks of `plasma_zgeqrf` (compute/zgeqrf.c:84-96). -/
def zgeqrfArgs (m n lda : Int) : Int :=
  if m < 0 then -1 else
  if n < 0 then -2 else
  if lda < max 1 m then -4 else
  0

/-- Argument checks of `plasma_zgeqrs` (compute/zgeqrs.c:84-104). -/
def zgeqrsArgs (m n nrhs lda ldb : Int) : Int :=
  if m < 0 then -1 else
  if n < 0 ∨ n > m then -2 else
  if nrhs < 0 then -3 else
  if lda < max 1 m then -5 else
  if ldb < max 1 (max 1 m) then -8 else
  0

/-- Argument checks of `plasma_zgesdd` (compute/zgesdd.c:138-172). -/
def zgesddArgs (jobu jobvt m n lda ldu ldvt : Int) : Int :=
  if jobu ≠ NoVec ∧ jobu ≠ AllVec ∧ jobu ≠ SomeVec then -1 else
  if jobvt ≠ NoVec ∧ jobvt ≠ AllVec ∧ jobvt ≠ SomeVec then -2 else
  if jobvt ≠ jobu then -2 else
  if m < 0 then -3 else
  if n < 0 then -4 else
  if lda < max 1 m then -6 else
  if ldu < 1 ∨ (jobu ≠ NoVec ∧ ldu < m) then -9 else
  if ldvt < 1 ∨ (jobvt = AllVec ∧ ldvt < n) ∨ (jobvt = SomeVec ∧ ldvt < min m n) then -11 else
  0

/-- Argument checks of `plasma_zgesv` (compute/zgesv.c:36-51). -/
def zgesvArgs (n nrhs lda ldb : Int) : Int :=
  if n < 0 then -1 else
  if nrhs < 0 then -2 else
  if lda < max 1 n then -4 else
  if ldb < max 1 n then -7 else
  0

/-- Argument checks of `plasma_zgeswp` (compute/zgeswp.c:33-50). -/
def zgeswpArgs (colrow m n lda : Int) : Int :=
  if colrow ≠ Columnwise ∧ colrow ≠ Rowwise then -1 else
  if m < 0 then -2 else
  if n < 0 then -3 else
  if lda < max 1 m then -5 else
  0

/-- Argument checks of `plasma_zgetrf` (compute/zgetrf.c:35-46). -/
def zgetrfArgs (m n lda : Int) : Int :=
  if m < 0 then -1 else
  if n < 0 then -2 else
  if lda < max 1 m then -4 else
  0

/-- Argument checks of `plasma_zgetri` (compute/zgetri.c:67-75). -/
def zgetriArgs (n lda : Int) : Int :=
  if n < 0 then -1 else
  if lda < max 1 n then -3 else
  0

/-- Argument checks of `plasma_zgetri_aux` (compute/zgetri_aux.c:62-70). -/
def zgetri_auxArgs (n lda : Int) : Int :=
  if n < 0 then -1 else
  if lda < max 1 n then -3 else
  0

/-- Argument checks of `plasma_zgetrs` (compute/zgetrs.c:36-57). -/
def zgetrsArgs (trans n nrhs lda ldb : Int) : Int :=
  if trans ≠ NoTrans ∧ trans ≠ Trans ∧ trans ≠ ConjTrans then -1 else
  if n < 0 then -1 else
  if nrhs < 0 then -2 else
  if lda < max 1 n then -4 else
  if ldb < max 1 n then -7 else
  0

/-- Argument checks of `plasma_zhemm` (compute/zhemm.c:107-144). -/
def zhemmArgs (side uplo m n lda ldb ldc : Int) : Int :=
  if side ≠ Left ∧ side ≠ Right then -1 else
  if uplo ≠ Lower ∧ uplo ≠ Upper then -2 else
  if m < 0 then -3 else
  if n < 0 then -4 else
  if lda < max 1 (if side = Left then m else n) then -7 else
  if ldb < max 1 m then -9 else
  if ldc < max 1 m then -12 else
  0

/-- Argument checks of `plasma_zsymm` (compute/zsymm.c:109-145). -/
def zsymmArgs (side uplo m n lda ldb ldc : Int) : Int :=
  if side ≠ Left ∧ side ≠ Right then -1 else
  if uplo ≠ Lower ∧ uplo ≠ Upper then -2 else
  if m < 0 then -3 else
  if n < 0 then -4 else
  if lda < max 1 (if side = Left then m else n) then -7 else
  if ldb < max 1 m then -9 else
  if ldc < max 1 m then -12 else
  0

/-- Argument checks of `plasma_zher2k` (compute/zher2k.c:114-160). -/
def zher2kArgs (uplo trans n k lda ldb ldc : Int) : Int :=
  if uplo ≠ Upper ∧ uplo ≠ Lower then -1 else
  if trans ≠ NoTrans ∧ trans ≠ ConjTrans then -2 else
  if n < 0 then -3 else
  if k < 0 then -4 else
  if lda < max 1 (if trans = NoTrans then n else k) then -7 else
  if ldb < max 1 (if trans = NoTrans then n else k) then -9 else
  if ldc < max 1 n then -12 else
  0

/-- Argument checks of `plasma_zsyr2k` (compute/zsyr2k.c:114-160). -/
def zsyr2kArgs (uplo trans n k lda ldb ldc : Int) : Int :=
  if uplo ≠ Upper ∧ uplo ≠ Lower then -1 else
  if trans ≠ NoTrans ∧ trans ≠ Trans then -2 else
  if n < 0 then -3 else
  if k < 0 then -4 else
  if lda < max 1 (if trans = NoTrans then n else k) then -7 else
  if ldb < max 1 (if trans = NoTrans then n else k) then -9 else
  if ldc < max 1 n then -12 else
  0

/-- Argument checks of `plasma_zherk` (compute/zherk.c:99-136). -/
def zherkArgs (uplo trans n k lda ldc : Int) : Int :=
  if uplo ≠ Upper ∧ uplo ≠ Lower then -1 else
  if trans ≠ NoTrans ∧ trans ≠ ConjTrans then -2 else
  if n < 0 then -3 else
  if k < 0 then -4 else
  if lda < max 1 (if trans = NoTrans then n else k) then -7 else
  if ldc < max 1 n then -10 else
  0

/-- Argument checks of `plasma_zsyrk` (compute/zsyrk.c:101-138). -/
def zsyrkArgs (uplo trans n k lda ldc : Int) : Int :=
  if uplo ≠ Upper ∧ uplo ≠ Lower then -1 else
  if trans ≠ NoTrans ∧ trans ≠ Trans then -2 else
  if n < 0 then -3 else
  if k < 0 then -4 else
  if lda < max 1 (if trans = NoTrans then n else k) then -7 else
  if ldc < max 1 n then -10 else
  0

/-- Argument checks of `plasma_zhesv` (compute/zhesv.c:101-122). -/
def zhesvArgs (uplo n nrhs lda ldb : Int) : Int :=
  if uplo ≠ Lower then -1 else
  if n < 0 then -2 else
  if nrhs < 0 then -5 else
  if lda < max 1 n then -7 else
  if ldb < max 1 n then -10 else
  0

/-- Argument checks of `plasma_zhetrs` (compute/zhetrs.c:100-121). -/
def zhetrsArgs (uplo n nrhs lda ldb : Int) : Int :=
  if uplo ≠ Lower then -1 else
  if n < 0 then -2 else
  if nrhs < 0 then -5 else
  if lda < max 1 n then -7 else
  if ldb < max 1 n then -10 else
  0

/-- Argument checks of `plasma_zhetrf` (compute/zhetrf.c:103-116). -/
def zhetrfArgs (uplo n lda : Int) : Int :=
  if uplo ≠ Lower then -1 else
  if n < 0 then -2 else
  if lda < max 1 n then -4 else
  0

/-- Argument checks of `plasma_zlacpy` (compute/zlacpy.c:86-118). -/
def zlacpyArgs (uplo transa m n lda ldb : Int) : Int :=
  if uplo ≠ General ∧ uplo ≠ Upper ∧ uplo ≠ Lower then -1 else
  if transa ≠ NoTrans ∧ transa ≠ Trans ∧ transa ≠ ConjTrans then -2 else
  if m < 0 then -3 else
  if n < 0 then -4 else
  if transa ≠ NoTrans ∧ m ≠ n then -3 else
  if lda < max 1 m then -6 else
  if ldb < max 1 (if transa = NoTrans then m else n) then -8 else
  0

/-- Argument checks of `plasma_zlag2c` (compute/zlag2c.c:70-86). -/
def zlag2cArgs (m n lda ldas : Int) : Int :=
  if m < 0 then -1 else
  if n < 0 then -2 else
  if lda < max 1 m then -4 else
  if ldas < max 1 m then -6 else
  0

/-- Argument checks of `plasma_zlangb` (compute/zlangb.c:92-119). -/
def zlangbArgs (norm m n kl ku ldab : Int) : Int :=
  if norm ≠ MaxNorm ∧ norm ≠ OneNorm ∧ norm ≠ InfNorm ∧ norm ≠ FrobeniusNorm then -1 else
  if m < 0 then -2 else
  if n < 0 then -3 else
  if kl < 0 then -4 else
  if ku < 0 then -5 else
  if ldab < max 1 (1+kl+ku) then -7 else
  0

/-- Argument checks of `plasma_zlange` (compute/zlange.c:87-105). -/
def zlangeArgs (norm m n lda : Int) : Int :=
  if norm ≠ MaxNorm ∧ norm ≠ OneNorm ∧ norm ≠ InfNorm ∧ norm ≠ FrobeniusNorm then -1 else
  if m < 0 then -2 else
  if n < 0 then -3 else
  if lda < max 1 m then -5 else
  0

/-- Argument checks of `plasma_zlanhe` (compute/zlanhe.c:90-108). -/
def zlanheArgs (norm uplo n lda : Int) : Int :=
  if norm ≠ MaxNorm ∧ norm ≠ OneNorm ∧ norm ≠ InfNorm ∧ norm ≠ FrobeniusNorm then -1 else
  if uplo ≠ Upper ∧ uplo ≠ Lower then -2 else
  if n < 0 then -3 else
  if lda < max 1 n then -5 else
  0

/-- Argument checks of `plasma_zlansy` (compute/zlansy.c:92-110). -/
def zlansyArgs (norm uplo n lda : Int) : Int :=
  if norm ≠ MaxNorm ∧ norm ≠ OneNorm ∧ norm ≠ InfNorm ∧ norm ≠ FrobeniusNorm then -1 else
  if uplo ≠ Upper ∧ uplo ≠ Lower then -2 else
  if n < 0 then -3 else
  if lda < max 1 n then -5 else
  0

/-- Argument checks of `plasma_zlantr` (compute/zlantr.c:95-123). -/
def zlantrArgs (norm uplo diag m n lda : Int) : Int :=
  if norm ≠ MaxNorm ∧ norm ≠ OneNorm ∧ norm ≠ InfNorm ∧ norm ≠ FrobeniusNorm then -1 else
  if uplo ≠ Upper ∧ uplo ≠ Lower then -2 else
  if diag ≠ Unit ∧ diag ≠ NonUnit then -3 else
  if m < 0 then -4 else
  if n < 0 then -5 else
  if lda < max 1 m then -7 else
  0

/-- Argument checks of `plasma_zlascl` (compute/zlascl.c:36-62). -/
def zlasclArgs (uplo : Int) (cfrom cto : Dbl) (m n lda : Int) : Int :=
  if uplo ≠ General ∧ uplo ≠ Upper ∧ uplo ≠ Lower then -1 else
  if cfrom.isZero ∨ cfrom.isNaN then -2 else
  if cto.isNaN then -3 else
  if m < 0 then -4 else
  if n < 0 then -5 else
  if lda < max 1 m then -7 else
  0

/-- Argument checks of `plasma_zlaset` (compute/zlaset.c:34-52). -/
def zlasetArgs (uplo m n lda : Int) : Int :=
  if uplo ≠ General ∧ uplo ≠ Upper ∧ uplo ≠ Lower then -1 else
  if m < 0 then -2 else
  if n < 0 then -3 else
  if lda < max 1 m then -5 else
  0

/-- Argument checks of `plasma_zlauum` (compute/zlauum.c:77-89). -/
def zlauumArgs (uplo n lda : Int) : Int :=
  if uplo ≠ Upper ∧ uplo ≠ Lower then -1 else
  if n < 0 then -2 else
  if lda < max 1 n then -4 else
  0

/-- Argument checks of `plasma_zpoinv` (compute/zpoinv.c:78-91). -/
def zpoinvArgs (uplo n lda : Int) : Int :=
  if uplo ≠ Upper ∧ uplo ≠ Lower then -1 else
  if n < 0 then -2 else
  if lda < max 1 n then -4 else
  0

/-- Argument checks of `plasma_zpotrf` (compute/zpotrf.c:85-98). -/
def zpotrfArgs (uplo n lda : Int) : Int :=
  if uplo ≠ Upper ∧ uplo ≠ Lower then -1 else
  if n < 0 then -2 else
  if lda < max 1 n then -4 else
  0

/-- Argument checks of `plasma_zpotri` (compute/zpotri.c:76-89). -/
def zpotriArgs (uplo n lda : Int) : Int :=
  if uplo ≠ Upper ∧ uplo ≠ Lower then -1 else
  if n < 0 then -2 else
  if lda < max 1 n then -4 else
  0

/-- Argument checks of `plasma_zpbsv` (compute/zpbsv.c:104-129). -/
def zpbsvArgs (uplo n kd nrhs ldab ldb : Int) : Int :=
  if uplo ≠ Upper ∧ uplo ≠ Lower then -1 else
  if n < 0 then -2 else
  if kd < 0 then -3 else
  if nrhs < 0 then -4 else
  if ldab < kd + 1 then -6 else
  if ldb < max 1 n then -8 else
  0

/-- Argument checks of `plasma_zpbtrf` (compute/zpbtrf.c:88-105). -/
def zpbtrfArgs (uplo n kd ldab : Int) : Int :=
  if uplo ≠ Upper ∧ uplo ≠ Lower then -1 else
  if n < 0 then -2 else
  if kd < 0 then -3 else
  if ldab < kd + 1 then -5 else
  0

/-- Argument checks of `plasma_zpbtrs` (compute/zpbtrs.c:93-118). -/
def zpbtrsArgs (uplo n kd nrhs ldab ldb : Int) : Int :=
  if uplo ≠ Upper ∧ uplo ≠ Lower then -1 else
  if n < 0 then -2 else
  if kd < 0 then -4 else
  if nrhs < 0 then -5 else
  if ldab < max 1 (1+kd) then -7 else
  if ldb < max 1 n then -10 else
  0

/-- Argument checks of `plasma_zposv` (compute/zposv.c:102-123). -/
def zposvArgs (uplo n nrhs lda ldb : Int) : Int :=
  if uplo ≠ Upper ∧ uplo ≠ Lower then -1 else
  if n < 0 then -2 else
  if nrhs < 0 then -3 else
  if lda < max 1 n then -5 else
  if ldb < max 1 n then -7 else
  0

/-- Argument checks of `plasma_zpotrs` (compute/zpotrs.c:89-110). -/
def zpotrsArgs (uplo n nrhs lda ldb : Int) : Int :=
  if uplo ≠ Upper ∧ uplo ≠ Lower then -1 else
  if n < 0 then -2 else
  if nrhs < 0 then -3 else
  if lda < max 1 n then -5 else
  if ldb < max 1 n then -7 else
  0

/-- Argument checks of `plasma_ztradd` (compute/ztradd.c:107-155). -/
def ztraddArgs (uplo transa m n pA lda pB ldb : Int) : Int :=
  if uplo ≠ Upper ∧ uplo ≠ Lower then -1 else
  if transa ≠ NoTrans ∧ transa ≠ Trans ∧ transa ≠ ConjTrans then -2 else
  if m < 0 then -3 else
  if n < 0 then -4 else
  if pA = 0 then -6 else
  if lda < max 1 (if transa = NoTrans then m else n) then -7 else
  if pB = 0 then -9 else
  if ldb < max 1 m then -10 else
  0

/-- Argument checks of `plasma_ztrmm` (compute/ztrmm.c:124-162). -/
def ztrmmArgs (side uplo transa diag m n lda ldb : Int) : Int :=
  if side ≠ Left ∧ side ≠ Right then -1 else
  if uplo ≠ Upper ∧ uplo ≠ Lower then -2 else
  if transa ≠ ConjTrans ∧ transa ≠ NoTrans ∧ transa ≠ Trans then -3 else
  if diag ≠ Unit ∧ diag ≠ NonUnit then -4 else
  if m < 0 then -5 else
  if n < 0 then -6 else
  if lda < max 1 (if side = Left then m else n) then -8 else
  if ldb < max 1 m then -10 else
  0

/-- Argument checks of `plasma_ztrsm` (compute/ztrsm.c:117-161). -/
def ztrsmArgs (side uplo transa diag m n lda ldb : Int) : Int :=
  if side ≠ Left ∧ side ≠ Right then -1 else
  if uplo ≠ Upper ∧ uplo ≠ Lower then -2 else
  if transa ≠ ConjTrans ∧ transa ≠ NoTrans ∧ transa ≠ Trans then -3 else
  if diag ≠ Unit ∧ diag ≠ NonUnit then -4 else
  if m < 0 then -5 else
  if n < 0 then -6 else
  if lda < max 1 (if side = Left then m else n) then -8 else
  if ldb < max 1 m then -10 else
  0

/-- Argument checks of `plasma_ztrtri` (compute/ztrtri.c:80-96). -/
def ztrtriArgs (uplo diag n lda : Int) : Int :=
  if uplo ≠ Upper ∧ uplo ≠ Lower then -1 else
  if diag ≠ Unit ∧ diag ≠ NonUnit then -2 else
  if n < 0 then -3 else
  if lda < max 1 n then -5 else
  0

/-- Argument checks of `plasma_zunglq` (compute/zunglq.c:85-105). -/
def zunglqArgs (m n k lda ldq : Int) : Int :=
  if m < 0 then -1 else
  if n < m then -2 else
  if k < 0 ∨ k > m then -3 else
  if lda < max 1 m then -5 else
  if ldq < max 1 m then -8 else
  0

/-- Argument checks of `plasma_zungqr` (compute/zungqr.c:85-105). -/
def zungqrArgs (m n k lda ldq : Int) : Int :=
  if m < 0 then -1 else
  if n < 0 ∨ n > m then -2 else
  if k < 0 ∨ k > n then -3 else
  if lda < max 1 m then -5 else
  if ldq < max 1 m then -8 else
  0

/-- Argument checks of `plasma_zunmlq` (compute/zunmlq.c:108-145). -/
def zunmlqArgs (side trans m n k lda ldc : Int) : Int :=
  if side ≠ Left ∧ side ≠ Right then -1 else
  if trans ≠ ConjTrans ∧ trans ≠ NoTrans then -2 else
  if m < 0 then -3 else
  if n < 0 then -4 else
  if k < 0 ∨ k > (if side = Left then m else n) then -5 else
  if lda < max 1 k then -7 else
  if ldc < max 1 m then -10 else
  0

/-- Argument checks of `plasma_zunmqr` (compute/zunmqr.c:110-147). -/
def zunmqrArgs (side trans m n k lda ldc : Int) : Int :=
  if side ≠ Left ∧ side ≠ Right then -1 else
  if trans ≠ ConjTrans ∧ trans ≠ NoTrans then -2 else
  if m < 0 then -3 else
  if n < 0 then -4 else
  if k < 0 ∨ k > (if side = Left then m else n) then -5 else
  if lda < max 1 (if side = Left then m else n) then -7 else
  if ldc < max 1 m then -10 else
  0

/-- Values returned by `plasma_zgesdd` before any work is done: the argument checks, the quick
return, and the restriction on the tile size `nb` of the context (compute/zgesdd.c:138-185). -/
def zgesddPre (nb jobu jobvt m n lda ldu ldvt : Int) : Option Int :=
  if zgesddArgs jobu jobvt m n lda ldu ldvt ≠ 0 then
    some (zgesddArgs jobu jobvt m n lda ldu ldvt) else
  if min m n = 0 then some 0 else
  if min m n < nb then some (-12) else
  none

end Verif.ArgCheck

/-
Descriptor creation and checking over the integers (control/descriptor.c), with
undefined behaviour as an explicit outcome.
-/
import Verif.LayoutGeneral

namespace Verif.Desc

/-- Result of a C call that fills in a descriptor. -/
inductive Outcome (β : Type)
  | ub                 -- undefined behaviour (here: integer division by zero)
  | err (code : Int)   -- error return
  | ok (x : β)         -- PlasmaSuccess
  deriving DecidableEq, Repr

/-- Matrix types (`PlasmaGeneral`, `PlasmaGeneralBand`, `PlasmaUpper`, `PlasmaLower`,
include/plasma_types.h). -/
inductive Ty | general | band | upper | lower
  deriving DecidableEq, Repr

/-- `plasma_desc_t` (include/plasma_descriptor.h:40-76).  Simplification: `int` and
`size_t` are unbounded integers. -/
structure ZDesc where
  type : Ty
  uplo : Ty
  precision : Int
  A21 : Int
  A12 : Int
  A22 : Int
  mb : Int
  nb : Int
  gm : Int
  gn : Int
  gmt : Int
  gnt : Int
  i : Int
  j : Int
  m : Int
  n : Int
  mt : Int
  nt : Int
  kl : Int
  ku : Int
  klt : Int
  kut : Int
  deriving DecidableEq, Repr

/-- Error codes (include/plasma_types.h). -/
def errNotInitialized : Int := -101
/-- `PlasmaErrorIllegalValue`. -/
def errIllegalValue : Int := -103
/-- `PlasmaErrorOutOfMemory`. -/
def errOutOfMemory : Int := -104

/-- `plasma_desc_general_init` (control/descriptor.c:134-175); `/` and `%` truncate
towards zero in C.  Callers must not have `mb = 0` or `nb = 0`. -/
def generalInit (precision mb nb lm ln i j m n : Int) : ZDesc :=
  let A21 := (lm - lm.tmod mb) * (ln - ln.tmod nb)
  let A12 := (lm.tmod mb) * (ln - ln.tmod nb) + A21
  let A22 := (lm - lm.tmod mb) * (ln.tmod nb) + A12
  let mt := if m = 0 then 0 else (i + m - 1).tdiv mb - i.tdiv mb + 1
  let nt := if n = 0 then 0 else (j + n - 1).tdiv nb - j.tdiv nb + 1
  { type := .general, uplo := .general, precision, A21, A12, A22, mb, nb, gm := lm, gn := ln
    gmt := if lm.tmod mb = 0 then lm.tdiv mb else lm.tdiv mb + 1
    gnt := if ln.tmod nb = 0 then ln.tdiv nb else ln.tdiv nb + 1
    i, j, m, n, mt, nt, kl := m - 1, ku := n - 1, klt := mt, kut := nt }

/-- `plasma_desc_general_band_init` (control/descriptor.c:178-213). -/
def bandInit (precision : Int) (uplo : Ty) (mb nb lm ln i j m n kl ku : Int) : ZDesc :=
  let A := generalInit precision mb nb lm ln i j m n
  { A with
    type := .band, uplo, kl, ku
    klt := if uplo = .general then 1 + (i + kl + mb - 1).tdiv mb - i.tdiv mb
      else if uplo = .upper then 1 else 1 + (i + kl + mb - 1).tdiv mb - i.tdiv mb
    kut := if uplo = .general then 1 + (i + ku + kl + nb - 1).tdiv nb - i.tdiv nb
      else if uplo = .upper then 1 + (i + ku + nb - 1).tdiv nb - i.tdiv nb else 1 }

/-- `plasma_desc_triangular_init` (control/descriptor.c:216-264).  A mismatch
`lm ≠ ln` only prints a message. -/
def triangularInit (precision : Int) (uplo : Ty) (mb nb lm ln i j m n : Int) : ZDesc :=
  let mnt := ((ln.tdiv nb) * (1 + lm.tdiv mb)).tdiv 2
  let A := generalInit precision mb nb lm ln i j m n
  { A with
    type := uplo
    A21 := (mb * nb) * mnt
    A12 := (mb * nb) * mnt
    A22 := (lm - lm.tmod mb) * (ln.tmod nb) + (mb * nb) * mnt }

/-- Precisions accepted by the checks (control/descriptor.c:286-292):
`PlasmaRealFloat` 2, `PlasmaRealDouble` 3, `PlasmaComplexFloat` 4, `PlasmaComplexDouble` 5. -/
def precOK (p : Int) : Bool := p = 2 ∨ p = 3 ∨ p = 4 ∨ p = 5

/-- `plasma_desc_general_check` (control/descriptor.c:284-319): `true` for
`PlasmaSuccess`, `false` for `PlasmaErrorIllegalValue`, tests in program order. -/
def generalCheck (A : ZDesc) : Bool :=
  if ¬ precOK A.precision then false
  else if A.mb ≤ 0 ∨ A.nb ≤ 0 then false
  else if A.m < 0 ∨ A.n < 0 then false
  else if A.gm < A.m ∨ A.gn < A.n then false
  else if (A.i > 0 ∧ A.i ≥ A.gm) ∨ (A.j > 0 ∧ A.j ≥ A.gn) then false
  else if A.i + A.m > A.gm ∨ A.j + A.n > A.gn then false
  else if A.i.tmod A.mb ≠ 0 ∨ A.j.tmod A.nb ≠ 0 then false
  else true

/-- `plasma_desc_general_band_check` (control/descriptor.c:322-371).  Line 347 tests
`PlasmaUpper` a second time, so the row count of a `PlasmaLower` band is never
checked. -/
def bandCheck (A : ZDesc) : Bool :=
  if ¬ precOK A.precision then false
  else if A.mb ≤ 0 ∨ A.nb ≤ 0 then false
  else if A.m < 0 ∨ A.n < 0 then false
  else if A.gn < A.n then false
  else if (A.uplo = .general ∧ A.gm < A.mb * ((2 * A.kl + A.ku + A.mb).tdiv A.mb)) ∨
      (A.uplo = .upper ∧ A.gm < A.mb * ((A.ku + A.mb).tdiv A.mb)) ∨
      (A.uplo = .upper ∧ A.gm < A.mb * ((A.kl + A.mb).tdiv A.mb)) then false
  else if (A.i > 0 ∧ A.i ≥ A.gm) ∨ (A.j > 0 ∧ A.j ≥ A.gn) then false
  else if A.j + A.n > A.gn then false
  else if A.i.tmod A.mb ≠ 0 ∨ A.j.tmod A.nb ≠ 0 then false
  else if A.kl + 1 > A.m ∨ A.ku + 1 > A.n then false
  else true

/-- `plasma_desc_check` (control/descriptor.c:267-281). -/
def check (A : ZDesc) : Bool :=
  match A.type with
  | .general | .upper | .lower => generalCheck A
  | .band => bandCheck A

/-- `plasma_desc_general_create` (control/descriptor.c:16-47).  `initialized`: the
context exists; `alloc`: `malloc` succeeds.  The divisions in the init function happen
before the check: a zero tile size is undefined behaviour. -/
def generalCreate (initialized alloc : Bool) (precision mb nb lm ln i j m n : Int) : Outcome ZDesc :=
  if ¬ initialized then .err errNotInitialized
  else if mb = 0 ∨ nb = 0 then .ub
  else
    let A := generalInit precision mb nb lm ln i j m n
    if ¬ check A then .err errIllegalValue
    else if ¬ alloc then .err errOutOfMemory
    else .ok A

/-- `plasma_desc_general_band_create` (control/descriptor.c:50-82). -/
def bandCreate (initialized alloc : Bool) (precision : Int) (uplo : Ty)
    (mb nb lm ln i j m n kl ku : Int) : Outcome ZDesc :=
  if ¬ initialized then .err errNotInitialized
  else if mb = 0 ∨ nb = 0 then .ub
  else
    let A := bandInit precision uplo mb nb lm ln i j m n kl ku
    if ¬ check A then .err errIllegalValue
    else if ¬ alloc then .err errOutOfMemory
    else .ok A

/-- `plasma_desc_triangular_create` (control/descriptor.c:85-119). -/
def triangularCreate (initialized alloc : Bool) (precision : Int) (uplo : Ty)
    (mb nb lm ln i j m n : Int) : Outcome ZDesc :=
  if ¬ initialized then .err errNotInitialized
  else if mb = 0 ∨ nb = 0 then .ub
  else
    let A := triangularInit precision uplo mb nb lm ln i j m n
    if ¬ check A then .err errIllegalValue
    else if ¬ alloc then .err errOutOfMemory
    else .ok A

/-- Number of elements allocated by `plasma_desc_general_create` and
`plasma_desc_general_band_create` (control/descriptor.c:39-40,74-75). -/
def generalAlloc (A : ZDesc) : Int := A.gm * A.gn

/-- Number of elements allocated by `plasma_desc_triangular_create`
(control/descriptor.c:108-112). -/
def triangularAlloc (mb nb lm ln : Int) : Int :=
  ((ln.tdiv nb) * (1 + lm.tdiv mb)).tdiv 2 * mb * nb + lm * (ln.tmod nb)

/-- `plasma_tile_addr_general` over the integers (include/plasma_descriptor.h:93-115),
as an element offset. -/
def tileAddrGeneral (A : ZDesc) (m n : Int) : Int :=
  let mm := m + A.i.tdiv A.mb
  let nn := n + A.j.tdiv A.nb
  let lm1 := A.gm.tdiv A.mb
  let ln1 := A.gn.tdiv A.nb
  if mm < lm1 then
    if nn < ln1 then A.mb * A.nb * (mm + lm1 * nn)
    else A.A12 + A.mb * (A.gn.tmod A.nb) * mm
  else
    if nn < ln1 then A.A21 + A.nb * (A.gm.tmod A.mb) * nn
    else A.A22

end Verif.Desc

/-
Rank-k and rank-2k updates: compute/pzsyrk.c, pzherk.c, pzsyr2k.c, pzher2k.c and
their kernels.
-/
import Verif.Par

namespace Verif.Tile

open Verif.Layout Finset

universe u v

/-- Elements of the selected triangle of an `n × n` tile. -/
def tri (u : Uplo) (n : Nat) : Nat → Nat → Prop := fun i j => i < n ∧ j < n ∧ inTri u i j

variable {M : Type u} {α : Type v}

/-- Complex conjugation if `h`. -/
def cj [Star α] (h : Bool) (x : α) : α := if h then star x else x

theorem cj_cj [CommRing α] [StarRing α] (h : Bool) (x : α) : cj h (cj h x) = x := by
  cases h <;> simp [cj]
theorem cj_add [CommRing α] [StarRing α] (h : Bool) (x y : α) : cj h (x + y) = cj h x + cj h y := by
  cases h <;> simp [cj]
theorem cj_mul [CommRing α] [StarRing α] (h : Bool) (x y : α) : cj h (x * y) = cj h x * cj h y := by
  cases h <;> simp [cj]
theorem cj_sum [CommRing α] [StarRing α] {ι : Type} (h : Bool) (t : Finset ι) (f : ι → α) :
    cj h (∑ l ∈ t, f l) = ∑ l ∈ t, cj h (f l) := by
  cases h <;> simp [cj]

/-- `PlasmaConjTrans` for the Hermitian routines, `PlasmaTrans` for the symmetric ones. -/
def tt (h : Bool) : Trans := if h then .conjTrans else .trans

/-- `re` is a real part: self-adjoint values are exactly the ones it fixes.  (For complex
scalars `x ↦ Re x`, for real scalars the identity.) -/
structure RePart [Star α] (re : α → α) : Prop where
  sa : ∀ x, star (re x) = re x
  fix : ∀ x, star x = x → re x = x

/-- The value a Hermitian kernel takes a stored element for: the imaginary part of a
diagonal element is assumed to be zero (BLAS documentation of zherk, zher2k, zhemm). -/
def dre (h : Bool) (re : α → α) (i j : Nat) (x : α) : α := if h = true ∧ i = j then re x else x

/-- `plasma_core_omp_zsyrk` (`h = false`, core_blas/core_zsyrk.c:73-109) and
`plasma_core_omp_zherk` (`h = true`, core_blas/core_zherk.c:73-108), by their BLAS
specification in exact arithmetic; the Hermitian kernel treats the diagonal as real. -/
def coreRk [CommRing α] [StarRing α] (h : Bool) (re : α → α) (u : Uplo) (t : Trans) (n k : Nat)
    (alpha : α) (a : M) (beta : α) (c : M) : TTask M α :=
  op1 a (if t = .noTrans then box n k else box k n) c (tri u n)
    fun A C i j => beta * dre h re i j (C i j) +
      alpha * ∑ l ∈ range k, opE t A i l * cj h (opE t A j l)

/-- `plasma_core_omp_zsyr2k` (core_blas/core_zsyr2k.c) and `plasma_core_omp_zher2k`
(core_blas/core_zher2k.c:90-140), by their BLAS specification. -/
def coreR2k [CommRing α] [StarRing α] (h : Bool) (re : α → α) (u : Uplo) (t : Trans) (n k : Nat)
    (alpha : α) (a b : M) (beta : α) (c : M) : TTask M α :=
  op2 a (if t = .noTrans then box n k else box k n) b (if t = .noTrans then box n k else box k n)
    c (tri u n)
    fun A B C i j => beta * dre h re i j (C i j) +
      (alpha * ∑ l ∈ range k, opE t A i l * cj h (opE t B j l) +
       cj h alpha * ∑ l ∈ range k, opE t B i l * cj h (opE t A j l))

section
variable [CommRing α] [StarRing α]

/-- `plasma_pzsyrk` (`h = false`, compute/pzsyrk.c:28-155) and `plasma_pzherk` (`h = true`,
compute/pzherk.c:28-155); the two files differ in the names of the kernels and in
`PlasmaTrans`/`PlasmaConjTrans` only. -/
def pzrk (h : Bool) (re : α → α) (u : Uplo) (t : Trans) (alpha : α) (A : TMat M) (beta : α)
    (C : TMat M) : List (TTask (M × Nat × Nat) α) :=
  (List.range C.d.nt).flatMap fun n =>
    if t = .noTrans then
      ((List.range A.d.nt).map fun k =>
        coreRk h re u t (C.d.nview n) (A.d.nview k) alpha (A.at' n k) (if k = 0 then beta else 1)
          (C.at' n n)) ++
      (if u = .lower then
        (span (n+1) C.d.mt).flatMap fun m => (List.range A.d.nt).map fun k =>
          coreGemm t (tt h) (C.d.mview m) (C.d.nview n) (A.d.nview k) alpha (A.at' m k) (A.at' n k)
            (if k = 0 then beta else 1) (C.at' m n)
      else
        (span (n+1) C.d.mt).flatMap fun m => (List.range A.d.nt).map fun k =>
          coreGemm t (tt h) (C.d.nview n) (C.d.mview m) (A.d.nview k) alpha (A.at' n k) (A.at' m k)
            (if k = 0 then beta else 1) (C.at' n m))
    else
      ((List.range A.d.mt).map fun k =>
        coreRk h re u t (C.d.nview n) (A.d.mview k) alpha (A.at' k n) (if k = 0 then beta else 1)
          (C.at' n n)) ++
      (if u = .lower then
        (span (n+1) C.d.mt).flatMap fun m => (List.range A.d.mt).map fun k =>
          coreGemm t .noTrans (C.d.mview m) (C.d.nview n) (A.d.mview k) alpha (A.at' k m) (A.at' k n)
            (if k = 0 then beta else 1) (C.at' m n)
      else
        (span (n+1) C.d.mt).flatMap fun m => (List.range A.d.mt).map fun k =>
          coreGemm t .noTrans (C.d.nview n) (C.d.mview m) (A.d.mview k) alpha (A.at' k n) (A.at' k m)
            (if k = 0 then beta else 1) (C.at' n m))

/-- `plasma_pzsyr2k` (`h = false`, compute/pzsyr2k.c:29-192) and `plasma_pzher2k`
(`h = true`, compute/pzher2k.c:29-192). -/
def pzr2k (h : Bool) (re : α → α) (u : Uplo) (t : Trans) (alpha : α) (A B : TMat M) (beta : α)
    (C : TMat M) : List (TTask (M × Nat × Nat) α) :=
  (List.range C.d.nt).flatMap fun n =>
    if t = .noTrans then
      ((List.range A.d.nt).map fun k =>
        coreR2k h re u t (C.d.nview n) (A.d.nview k) alpha (A.at' n k) (B.at' n k)
          (if k = 0 then beta else 1) (C.at' n n)) ++
      (if u = .lower then
        (span (n+1) C.d.mt).flatMap fun m => (List.range A.d.nt).flatMap fun k =>
          [coreGemm t (tt h) (C.d.mview m) (C.d.nview n) (A.d.nview k) alpha (A.at' m k) (B.at' n k)
            (if k = 0 then beta else 1) (C.at' m n),
           coreGemm t (tt h) (C.d.mview m) (C.d.nview n) (A.d.nview k) (cj h alpha) (B.at' m k)
            (A.at' n k) 1 (C.at' m n)]
      else
        (span (n+1) C.d.mt).flatMap fun m => (List.range A.d.nt).flatMap fun k =>
          [coreGemm t (tt h) (C.d.nview n) (C.d.mview m) (A.d.nview k) alpha (A.at' n k) (B.at' m k)
            (if k = 0 then beta else 1) (C.at' n m),
           coreGemm t (tt h) (C.d.nview n) (C.d.mview m) (A.d.nview k) (cj h alpha) (B.at' n k)
            (A.at' m k) 1 (C.at' n m)])
    else
      ((List.range A.d.mt).map fun k =>
        coreR2k h re u t (C.d.nview n) (A.d.mview k) alpha (A.at' k n) (B.at' k n)
          (if k = 0 then beta else 1) (C.at' n n)) ++
      (if u = .lower then
        (span (n+1) C.d.mt).flatMap fun m => (List.range A.d.mt).flatMap fun k =>
          [coreGemm t .noTrans (C.d.mview m) (C.d.nview n) (A.d.mview k) alpha (A.at' k m) (B.at' k n)
            (if k = 0 then beta else 1) (C.at' m n),
           coreGemm t .noTrans (C.d.mview m) (C.d.nview n) (A.d.mview k) (cj h alpha) (B.at' k m)
            (A.at' k n) 1 (C.at' m n)]
      else
        (span (n+1) C.d.mt).flatMap fun m => (List.range A.d.mt).flatMap fun k =>
          [coreGemm t .noTrans (C.d.nview n) (C.d.mview m) (A.d.mview k) alpha (A.at' k n) (B.at' k m)
            (if k = 0 then beta else 1) (C.at' n m),
           coreGemm t .noTrans (C.d.nview n) (C.d.mview m) (A.d.mview k) (cj h alpha) (B.at' k n)
            (A.at' k m) 1 (C.at' n m)])

variable [DecidableEq α]

/-- `plasma_omp_zsyrk`/`plasma_omp_zherk` after the argument checks (compute/zsyrk.c:310-319,
compute/zherk.c:308-317). -/
def ompRk (h : Bool) (re : α → α) (u : Uplo) (t : Trans) (alpha : α) (A : TMat M) (beta : α)
    (C : TMat M) : List (TTask (M × Nat × Nat) α) :=
  let k := if t = .noTrans then A.d.n else A.d.m
  if C.d.m = 0 ∨ ((alpha = 0 ∨ k = 0) ∧ beta = 1) then []
  else pzrk h re u t alpha A beta C

/-- `plasma_omp_zsyr2k`/`plasma_omp_zher2k` after the argument checks
(compute/zsyr2k.c:351-362, compute/zher2k.c:353-364). -/
def ompR2k (h : Bool) (re : α → α) (u : Uplo) (t : Trans) (alpha : α) (A B : TMat M) (beta : α)
    (C : TMat M) : List (TTask (M × Nat × Nat) α) :=
  let k := if t = .noTrans then A.d.n else A.d.m
  if C.d.m = 0 ∨ ((alpha = 0 ∨ k = 0) ∧ beta = 1) then []
  else pzr2k h re u t alpha A B beta C

end

end Verif.Tile

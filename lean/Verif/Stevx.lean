/-
Bisection for eigenvalues of symmetric tridiagonal matrices: compute/zlaneg2.c,
compute/zlaebz2.c, compute/zstevx2.c.
-/
import Mathlib.Algebra.Order.Field.Basic
import Mathlib.Order.Interval.Finset.Basic
import Mathlib.Data.Int.Interval

namespace Verif.Stevx

/-! ### The Sturm count -/

/-- Local variables of the loop of `plasma_zlaneg2` (compute/zlaneg2.c:96-97). -/
structure NegSt (α : Type) where
  isneg : Nat
  p0 : α
  p1 : α

section
variable {α : Type} [Field α] [LinearOrder α]

/-- `PHI` (compute/zlaneg2.c:99). -/
def phi : α := 2 ^ 34

/-- One round of the loop of `plasma_zlaneg2` (compute/zlaneg2.c:106-131).  Exact arithmetic;
`dv` is division (a division by `w = 0` happens only when both running values are 0; floating
point then produces NaN, for which both comparisons are false, just as for 0). -/
def negStep (dv : α → α → α) (d b : Nat → α) (u : α) (s : NegSt α) (i : Nat) : NegSt α :=
  let v0 := |s.p0|
  let v1 := |s.p1|
  let w := if v0 > v1 then v0 else v1
  let q0 := (d i - u) * s.p0 - (b (i - 1) * b (i - 1)) * s.p1
  let q1 := s.p0
  let sc := if w > phi then dv phi w else if w < dv 1 phi then dv (dv 1 phi) w else 1
  let r0 := q0 * sc
  let r1 := q1 * sc
  ⟨if (r0 < 0 ∧ r1 ≥ 0) ∨ (r0 ≥ 0 ∧ r1 < 0) then s.isneg + 1 else s.isneg, r0, r1⟩

/-- `plasma_zlaneg2` (compute/zlaneg2.c:95-135). -/
def laneg2 (dv : α → α → α) (d b : Nat → α) (n : Nat) (u : α) : Nat :=
  if n = 0 then 0 else
    ((List.range' 1 (n - 1)).foldl (negStep dv d b u) ⟨if d 0 - u < 0 then 1 else 0, d 0 - u, 1⟩).isneg

end

/-! ### Bisection -/

/-- Floating point numbers as far as bisection sees them: finitely many between any two, and
`(l+u)*0.5` lies between `l` and `u`, strictly if any number does (compute/zlaebz2.c:254).  Overflow of `l+u` is excluded. -/
structure Mid (F : Type) [LinearOrder F] where
  mid : F → F → F
  lo : ∀ l u, l ≤ u → l ≤ mid l u
  hi : ∀ l u, l ≤ u → mid l u ≤ u
  strict : ∀ l u x, l < x → x < u → l < mid l u ∧ mid l u < u

/-- One write of `lowerBound` and `numEV` to `pVal[idx]`, `pMul[idx]`
(compute/zlaebz2.c:346-367); the eigenvector goes to column `idx` of `pVec`. -/
structure Wr (F : Type) where
  idx : Int
  val : F
  mul : Int
  deriving DecidableEq

/-- Fields of `zlaebz2_Control_t` the bisection looks at (include/plasma_zlaebz2_work.h). -/
structure Control where
  rangeI : Bool
  il : Int
  iu : Int
  baseIdx : Int

section
variable {F : Type} [LinearOrder F]

/-- The test made on entry (compute/zlaebz2.c:240-248): nothing to do. -/
def skipTask (C : Control) (nl nh ne : Int) : Bool :=
  decide (ne < 1) || (C.rangeI && (decide (nh < C.il) || decide (nl > C.iu)))

/-- The loop of `plasma_zlaebz2` and the writes after it (compute/zlaebz2.c:252-367), together
with the tasks it spawns; the result lists all writes of this task and its descendants (tasks
only write, so their order is immaterial).  `cnt` is `plasma_zlaneg2`, never negative.  `none`: `cp` outside the
bracket, excluded by `Mid`. -/
def bisect [LocallyFiniteOrder F] (M : Mid F) (cnt : F → Int) (C : Control) (l u : F) (nl nh ne : Int) :
    Option (List (Wr F)) :=
  let cp := M.mid l u
  if cp = l ∨ cp = u then
    some [⟨if C.rangeI then nl - (C.il - 1) else nl - C.baseIdx, l, ne⟩]
  else if h : l < cp ∧ cp < u then
    let ev := cnt cp
    if ev = nh then bisect M cnt C l cp nl nh ne
    else if ev = nl then bisect M cnt C cp u nl nh ne
    else if C.rangeI ∧ ev < C.il then bisect M cnt C cp u ev nh (nh - ev)
    else if C.rangeI ∧ ev ≥ C.iu then bisect M cnt C l cp nl ev (ev - nl)
    else do
      let right ← if skipTask C ev nh (nh - ev) then some [] else bisect M cnt C cp u ev nh (nh - ev)
      let left ← bisect M cnt C l cp nl ev (ev - nl)
      return left ++ right
  else none
termination_by (Finset.Ico l u).card
decreasing_by
  all_goals
    apply Finset.card_lt_card
    first
    | (refine (Finset.ssubset_iff_of_subset (Finset.Ico_subset_Ico le_rfl h.2.le)).mpr
        ⟨M.mid l u, Finset.mem_Ico.mpr ⟨h.1.le, h.2⟩,
          fun hh => absurd (Finset.mem_Ico.mp hh).2 (lt_irrefl _)⟩)
    | (refine (Finset.ssubset_iff_of_subset (Finset.Ico_subset_Ico h.1.le le_rfl)).mpr
        ⟨l, Finset.mem_Ico.mpr ⟨le_rfl, h.1.trans h.2⟩,
          fun hh => absurd (Finset.mem_Ico.mp hh).1 (not_le.mpr h.1)⟩)

/-- The root call `plasma_zlaebz2(&Control, vl, vu, -1, -1, nEigVals)`
(compute/zstevx2.c:406, compute/zlaebz2.c:226-249). -/
def laebz2 [LocallyFiniteOrder F] (M : Mid F) (cnt : F → Int) (C : Control) (l u : F) : Option (List (Wr F)) :=
  if skipTask C (cnt l) (cnt u) (cnt u - cnt l) then some []
  else bisect M cnt C l u (cnt l) (cnt u) (cnt u - cnt l)

end

/-! ### The driver -/

/-- The range `plasma_zstevx2` bisects, the number of eigenvalues `nEigVals` it expects and the
control block (compute/zstevx2.c:342-377, 406).  `gmin`, `gmax` are the results of
`plasma_zstelg`, not modelled; `nxt` is `nexttoward(·, DBL_MAX)`. -/
def setup {F : Type} [LinearOrder F] (nxt : F → F) (cnt : F → Int) (gmin gmax : F) (n : Int)
    (rangeI : Bool) (vl vu : F) (il iu : Int) : F × F × Int × Control :=
  if rangeI then (gmin, nxt gmax, iu + 1 - il, ⟨true, il, iu, 0⟩)
  else
    let a := if vl ≥ gmin then (cnt vl, vl) else (0, gmin)
    let b := if vu ≤ gmax then (cnt vu, vu) else (n, nxt gmax)
    (a.2, b.2, b.1 - a.1, ⟨false, il, iu, a.1⟩)

/-- The writes `plasma_zstevx2` makes to `pVal[idx]`, `pMul[idx]` (and column `idx` of `pVec`),
and `nEigVals`, which is compared with `k` before (compute/zstevx2.c:342-408). -/
def stevx2 {F : Type} [LinearOrder F] [LocallyFiniteOrder F] (M : Mid F) (nxt : F → F)
    (cnt : F → Int) (gmin gmax : F) (n : Int) (rangeI : Bool) (vl vu : F) (il iu : Int) :
    Int × Option (List (Wr F)) :=
  let s := setup nxt cnt gmin gmax n rangeI vl vu il iu
  (s.2.2.1, laebz2 M cnt s.2.2.2 s.1 s.2.1)

/-- Values of `jobtype` (include/plasma_types.h:99-103). -/
inductive Job | noVec | vec | count
  deriving DecidableEq

/-- What `plasma_zstevx2` does with the pointers `pVec` and `stein_arrays`. -/
inductive Acc
  | vec            -- reads or writes elements of `pVec`
  | stein (i : Nat) -- reads `stein_arrays[i]`
  deriving DecidableEq

/-- Uses of `pVec` and `stein_arrays` by `plasma_zstevx2` after the argument checks
(compute/zstevx2.c:316-528), in program order, without those inside the bisection, which are
made for `PlasmaVec` only (compute/zlaebz2.c:353-363).  `nEig` and `found` are the values of
`nEigVals` and `vectorsFound`, `threads` is `omp_get_max_threads()`.  `plasma_zgeqrf` on an
`n × found` matrix touches `pVec` unless `found = 0`; its success is `qrOk`. -/
def tailAccesses (job : Job) (n : Nat) (k nEig : Int) (pValNull pMulNull pVecNull : Bool)
    (found threads : Nat) (qrOk : Bool) : List Acc :=
  if n = 0 then [] else
  if job = .count then [] else
  if k < nEig then [] else
  if pValNull ∨ pMulNull ∨ (job = .vec ∧ pVecNull) then [] else
  -- compression of pVec
  (if job = .vec ∧ (found : Int) < nEig then [.vec] else []) ++
  -- plasma_zgeqrf, plasma_zungqr, memcpy
  (if found = 0 then [] else [.vec]) ++
  -- neighbour swaps
  (if qrOk ∧ job = .vec ∧ 1 < found then [.vec] else []) ++
  -- Cleanup
  (List.range threads).map .stein

/-- `stein_arrays` is allocated for `PlasmaVec` only (compute/zstevx2.c:324-331). -/
def steinNull (job : Job) : Bool := job ≠ .vec

end Verif.Stevx

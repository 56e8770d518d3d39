/-
The multithreaded LU panel kernel `plasma_core_zgetrf` (core_blas/core_zgetrf.c:28-238).

The kernel is executed by `size` ranks that share the panel, the pivot array, two arrays
`max_idx`, `max_val` and the word `info`, in phases separated by barriers.
-/
import Verif.Spmd
import Verif.LUMath
import Verif.Trsm

namespace Verif.Panel

open Verif.Tile Verif.Layout Verif.LU Finset

universe v w

/-- Shared memory of the panel: tile `l` of the panel, `ipiv`, `max_val`, `max_idx`, `info`. -/
inductive PT
  | a (l : Nat) | ipiv | mval | midx | info
  deriving DecidableEq, Repr

/-- A cell holds a number (tiles, `max_val`) or an integer (`ipiv`, `max_idx`, `info`); the
component that is not used is ignored. -/
abbrev PS (α : Type v) := Store PT (α × Nat)

/-- Sizes of the call: tile size `b = A.mb`, inner block size `ib`, number of ranks `size`,
rows `M = A.m` and columns `N = A.n` of the panel. -/
structure Cfg where
  b : Nat
  ib : Nat
  size : Nat
  M : Nat
  N : Nat

namespace Cfg
variable (z : Cfg)
/-- `imin(A.m, A.n)`. -/
def mn : Nat := min z.M z.N
/-- `A.mt`. -/
def mt : Nat := ceilDiv z.M z.b
/-- `kb` (line 34). -/
def kb (k : Nat) : Nat := min (z.mn - k) z.ib
/-- Tiles of a rank: `for (l = rank; l < A.mt; l += size)` (lines 49, 109, 192). -/
def tiles (rank : Nat) : List Nat := (List.range z.mt).filter fun l => l % z.size = rank
/-- Rows a rank looks at in tile `l` while eliminating column `j` (lines 54-55, 63-64). -/
def rows (j l : Nat) : List Nat :=
  if l = 0 then List.range' (j + 1) (tdim z.M z.b 0 - j - 1)
  else List.range' (l * z.b) (tdim z.M z.b l)
/-- Cells of the panel at positions in `R`. -/
def reg (R : Nat → Nat → Prop) : Foot PT := fun x i c => ∃ l, x = .a l ∧ i < z.b ∧ R (l * z.b + i) c
/-- A row number read from `ipiv`, `max_idx`; a value outside the panel would be a memory error
in C and is replaced by `i` here (the values are proved to be in range). -/
def clamp (lo i x : Nat) : Nat := if lo ≤ x ∧ x < z.M then x else i
end Cfg

section
variable {α : Type v}

/-- Entry `(r,c)` of the panel. -/
def num (z : Cfg) (s : PS α) (r c : Nat) : α := (s (.a (r / z.b)) (r % z.b) c).1
/-- `ipiv[i]`. -/
def pivv (s : PS α) (i : Nat) : Nat := (s .ipiv i 0).2
/-- `*info`. -/
def infov (s : PS α) : Nat := (s .info 0 0).2

/-- Interchange the rows `i` and `p i` for the `i` in the list, in this order
(`cblas_zswap`). -/
def interch (l : List Nat) (p : Nat → Nat) (X : Nat → Nat → α) : Nat → Nat → α :=
  l.foldl (fun X i => fun r c => X (Equiv.swap i (p i) r) c) X

variable [Field α] [StarRing α] [DecidableEq α] {γ : Type w} [LinearOrder γ]

/-- Search for the largest entry of column `j` among the given rows, starting from the diagonal
(lines 46-72): value and distance from row `j`. `mag` is `plasma_core_dcabs1`. -/
def search (mag : α → γ) (X : Nat → Nat → α) (j : Nat) (rows : List Nat) : α × Nat :=
  rows.foldl (fun a r => if mag a.1 < mag (X r j) then (X r j, r - j) else a) (X j j, 0)

/-- Lines 46-72. -/
def searchT (z : Cfg) (mag : α → γ) (j rank : Nat) : TTask PT (α × Nat) where
  deps := []
  rd := z.reg fun r c => c = j ∧ r < z.M ∧ (r = j ∨ (j < r ∧ r / z.b % z.size = rank))
  wr := fun x i c => (x = .mval ∨ x = .midx) ∧ i = rank ∧ c = 0
  f := fun s _ _ _ => search mag (num z s) j ((z.tiles rank).flatMap (z.rows j))

/-- Reduction over the ranks (lines 78-84). -/
def reduce (size : Nat) (mag : α → γ) (mv : Nat → α) (mi : Nat → Nat) : α × Nat :=
  (List.range' 1 (size - 1)).foldl (fun a i => if mag a.1 < mag (mv i) then (mv i, mi i) else a)
    (mv 0, mi 0)

/-- Lines 75-105: rank 0 reduces, records the pivot, checks for singularity, swaps. -/
def pivotT (z : Cfg) (mag : α → γ) (k j rank : Nat) : TTask PT (α × Nat) where
  deps := []
  rd := fun x i c => rank = 0 ∧ ((x = .mval ∨ x = .midx) ∧ i < z.size ∧ c = 0)
  wr := fun x i c => rank = 0 ∧ (((x = .mval ∨ x = .midx) ∧ i = 0 ∧ c = 0) ∨ (x = .ipiv ∧ i = j ∧ c = 0) ∨
    (x = .info ∧ i = 0 ∧ c = 0) ∨
    z.reg (fun r c => j ≤ r ∧ r < z.M ∧ k ≤ c ∧ c < k + z.kb k) x i c)
  f := fun s x i c =>
    let m := reduce z.size mag (fun i => (s .mval i 0).1) (fun i => (s .midx i 0).2)
    let jp := j + m.2
    match x with
    | .mval => m
    | .midx => m
    | .ipiv => (0, jp - k + 1)
    | .info => if infov s = 0 ∧ m.1 = 0 then (0, j + 1) else s .info i c
    | .a l => if infov s = 0 ∧ m.1 = 0 then s (.a l) i c
              else (num z s (Equiv.swap j (z.clamp j j jp) (l * z.b + i)) c, 0)

/-- The entry of column `j` after scaling (lines 114-135); `big` is `cabs(·) >= sfmin`. -/
def scaled (dv : α → α → α) (big : α → Bool) (inf : Nat) (X : Nat → Nat → α) (j r : Nat) : α :=
  if inf = 0 then (if big (X j j) then dv (X r j) (X j j) else dv 1 (X j j) * X r j) else X r j

/-- Lines 109-153: every rank scales column `j` and updates the trailing columns of the inner
block in its tiles. -/
def updateT (z : Cfg) (dv : α → α → α) (big : α → Bool) (k j rank : Nat) : TTask PT (α × Nat) where
  deps := []
  rd := fun x i c => z.reg (fun r c => r = j ∧ j ≤ c ∧ c < k + z.kb k) x i c ∨ (x = .info ∧ i = 0 ∧ c = 0)
  wr := z.reg fun r c => j < r ∧ r < z.M ∧ r / z.b % z.size = rank ∧ j ≤ c ∧ c < k + z.kb k
  f := fun s x i c => match x with
    | .a l =>
      let y := scaled dv big (infov s) (num z s) j (l * z.b + i)
      (if c = j then y else num z s (l * z.b + i) c + -1 * y * num z s j c, 0)
    | x => s x i c

/-- The pivots of an inner block as row numbers of the panel, before (`off = k`) or after
(`off = 0`) the adjustment of lines 163-164. -/
def prow (z : Cfg) (s : PS α) (off i : Nat) : Nat := z.clamp i i (pivv s i + off - 1)

/-- Lines 161-184: rank 0 adjusts the pivots of the inner block, interchanges the rows to the
right of it and solves with its unit lower triangle. -/
def rightT (z : Cfg) (dv : α → α → α) (k rank : Nat) : TTask PT (α × Nat) where
  deps := []
  rd := fun x i c => rank = 0 ∧ z.reg (fun r c => k ≤ r ∧ r < k + z.kb k ∧ k ≤ c ∧ c < k + z.kb k) x i c
  wr := fun x i c => rank = 0 ∧ ((x = .ipiv ∧ k ≤ i ∧ i < k + z.kb k ∧ c = 0) ∨
    z.reg (fun r c => k ≤ r ∧ r < z.M ∧ k + z.kb k ≤ c ∧ c < z.N) x i c)
  f := fun s x i c => match x with
    | .ipiv => (0, pivv s i + k)
    | .a l =>
      let Y := interch (List.range' k (z.kb k)) (prow z s k) (num z s)
      let r := l * z.b + i
      (if r < k + z.kb k then
        trsmK dv .left .lower .noTrans .unit (z.kb k) (z.N - (k + z.kb k)) 1
          (fun i j => num z s (k + i) (k + j)) (fun i j => Y (k + i) (k + z.kb k + j)) (r - k)
          (c - (k + z.kb k))
       else Y r c, 0)
    | x => s x i c

/-- Lines 192-217: every rank updates the rows below and the columns to the right of the inner
block in its tiles. -/
def gemmT (z : Cfg) (k rank : Nat) : TTask PT (α × Nat) where
  deps := []
  rd := z.reg fun r c => (k ≤ r ∧ r < k + z.kb k ∧ k + z.kb k ≤ c ∧ c < z.N) ∨
    (k + z.kb k ≤ r ∧ r < z.M ∧ r / z.b % z.size = rank ∧ k ≤ c ∧ c < k + z.kb k)
  wr := z.reg fun r c => k + z.kb k ≤ r ∧ r < z.M ∧ r / z.b % z.size = rank ∧ k + z.kb k ≤ c ∧ c < z.N
  f := fun s x i c => match x with
    | .a l =>
      let r := l * z.b + i
      (∑ q ∈ range (z.kb k), -1 * num z s r (k + q) * num z s (k + q) c + 1 * num z s r c, 0)
    | x => s x i c

/-- Starts of the inner blocks: `for (k = 0; k < imin(A.m, A.n); k += ib)`. -/
def blocks (z : Cfg) : List Nat := (List.range (ceilDiv z.mn z.ib)).map (· * z.ib)

/-- Lines 224-237: for every inner block but the last, the interchanges of the later blocks are
applied to its columns.  (The test `k%ib == rank` selects rank 0.) -/
def leftF (z : Cfg) (p : Nat → Nat) (rank : Nat) (X : Nat → Nat → α) : Nat → Nat → α :=
  ((blocks z).filter (0 < ·)).foldl (fun X k =>
    if k % z.ib = rank then
      fun r c => if k - z.ib ≤ c ∧ c < k then interch (List.range' k (z.mn - k)) p X r c else X r c
    else X) X

/-- Lines 224-237 as a task. -/
def leftT (z : Cfg) (rank : Nat) : TTask PT (α × Nat) where
  deps := []
  rd := fun x i c => rank = 0 ∧ x = .ipiv ∧ i < z.mn ∧ c = 0
  wr := fun x i c => rank = 0 ∧ z.reg (fun r c => r < z.M ∧ c < z.mn) x i c
  f := fun s x i c => match x with
    | .a l => (leftF z (prow z s 0) rank (num z s) (l * z.b + i) c, 0)
    | x => s x i c

/-- The phases of `plasma_core_zgetrf` between barriers (core_blas/core_zgetrf.c:33-237).  The
barriers of lines 154 and 160 have nothing between them. -/
def phases (z : Cfg) (mag : α → γ) (dv : α → α → α) (big : α → Bool) : List (Nat → TTask PT (α × Nat)) :=
  ((blocks z).flatMap fun k =>
    ((List.range' k (z.kb k)).flatMap fun j => [searchT z mag j, pivotT z mag k j, updateT z dv big k j]) ++
    [rightT z dv k, gemmT z k]) ++
  [leftT z]

end

end Verif.Panel

/-
Model of `plasma_pzhetrf_aasen` (compute/pzhetrf_aasen.c:46-635), lower triangle, in the order of the program text.
-/
import Verif.Heswp
import Verif.PanelProof
import Mathlib.Data.Nat.Log

namespace Verif.Aasen

open Verif.Tile Verif.Layout Verif.LU Verif.Panel Verif.Heswp Finset

set_option linter.unusedSectionVars false

universe v w

/-- Sizes of a call: order `N = A.m`, tile size `b`, inner block size `ib`, `plasma->max_panel_threads` and
`plasma->max_threads`. -/
structure AC where
  N : Nat
  b : Nat
  ib : Nat
  mpt : Nat
  mth : Nat

namespace AC
variable (z : AC)
/-- `A.mt`. -/
def mt : Nat := ceilDiv z.N z.b
/-- `plasma_tile_mview(A, k)`. -/
def mv (k : Nat) : Nat := hmv z.N z.b k
/-- `wmt`: tiles of the workspace `W5` (compute/pzhetrf_aasen.c:62, compute/zhetrf.c:158-159). -/
def wmt : Nat := 3 * z.mt
end AC

/-- State: `a` the matrix `A` by global indices, `t m n` the tile `T(m,n)`, `h m` the tile `H(m,k) = W2(m)`, `w3`, `w5` the tiles of
`W3`, `W5`, `w` the tile `W(0)`, `tb` the band matrix `T` by global indices, `piv` the array `ipiv`, `st` the status of the sequence
(compute/pzhetrf_aasen.c:22-41).  `T(m,n)` and `T(m',n')` with `m-n, m'-n' ∈ {0,1}` are different tiles of `W4`. -/
structure AS (α : Type v) where
  a : Nat → Nat → α
  t : Nat → Nat → Tl α
  h : Nat → Tl α
  w3 : Nat → Tl α
  w : Tl α
  w5 : Nat → Tl α
  tb : Nat → Nat → α
  piv : Nat → Nat
  st : Nat

/-- `num_rounds` rounds of the binary tree: pairs `(m1, m2)` with tile `m2` added to tile `m1`
(compute/pzhetrf_aasen.c:139-159, 294-328). -/
def treePairs : Nat → Nat → Nat → List (Nat × Nat)
  | 0, _, _ => []
  | R + 1, players, base =>
    (List.range (players / 2)).map (fun br => (base * br, base * br + base / 2)) ++ treePairs R ((players + 1) / 2) (2 * base)

/-- The tree for `num` tiles: `num_rounds = ceil(log10(num)/log10(2))`, computed in floating point in the code and exact here; by
`tree_sum` more rounds give the same result. -/
def tree (num : Nat) : List (Nat × Nat) := treePairs (Nat.clog 2 num) num 2

section
variable {α : Type v} [CommRing α] [StarRing α]

/-- `plasma_core_zgemm` on tiles (core_blas/core_zgemm.c). -/
def gm (ta tb : Trans) (m n k : Nat) (alpha : α) (A B : Tl α) (beta : α) (C : Tl α) : Tl α := fun i j =>
  if i < m ∧ j < n then beta * C i j + alpha * ∑ l ∈ range k, opE ta A i l * opE tb B l j else C i j

/-- `plasma_core_zgeadd` with `alpha = beta = 1`, not transposed (core_blas/core_zgeadd.c). -/
def addK (m n : Nat) (A B : Tl α) : Tl α := fun i j => if i < m ∧ j < n then A i j + B i j else B i j

/-- `plasma_core_zlacpy`, `PlasmaLower`, not transposed (core_blas/core_zlacpy.c:66-72). -/
def cpL (n : Nat) (A B : Tl α) : Tl α := fun i j => if j ≤ i ∧ i < n then A i j else B i j

/-- `plasma_core_zlacpy`, `PlasmaUpper`, not transposed (core_blas/core_zlacpy.c:66-72). -/
def cpU (m n : Nat) (A B : Tl α) : Tl α := fun i j => if i ≤ j ∧ i < m ∧ j < n then A i j else B i j

/-- `plasma_core_zlacpy`, `PlasmaLower`, conjugate transposed, of a square tile onto itself (core_blas/core_zlacpy.c:99-103). -/
def expandK (n : Nat) (A : Tl α) : Tl α := fun i j => if i ≤ j ∧ j < n then star (A j i) else A i j

/-- `plasma_core_zlaset`, `PlasmaUpper`, zero above the diagonal and one on it (core_blas/core_zlaset.c:57-70). -/
def setU (m n : Nat) (A : Tl α) : Tl α := fun i j => if i ≤ j ∧ i < m ∧ j < n then (if i = j then 1 else 0) else A i j

/-- Tile of the matrix `A`. -/
def tl (b : Nat) (X : Nat → Nat → α) (m n : Nat) : Tl α := fun i j => X (m * b + i) (n * b + j)

/-- Write back the first `mm` rows and `nn` columns of a tile. -/
def put (b : Nat) (X : Nat → Nat → α) (m n mm nn : Nat) (Y : Tl α) : Nat → Nat → α := fun r c =>
  if m * b ≤ r ∧ r < m * b + mm ∧ n * b ≤ c ∧ c < n * b + nn then Y (r - m * b) (c - n * b) else X r c

/-- New contents of `H(m,k)`, `1 ≤ m < k` (compute/pzhetrf_aasen.c:86-116); `L(m,n)` is tile `(m,n-1)` of `A` (line 23). -/
def hCol (z : AC) (k m : Nat) (s : AS α) : Tl α :=
  let h0 := gm .noTrans .conjTrans (z.mv m) (z.mv k) (z.mv m) 1 (s.t m m) (tl z.b s.a k (m - 1)) 0 (s.h m)
  let h1 := if 1 < m then gm .noTrans .conjTrans (z.mv m) (z.mv k) z.b 1 (s.t m (m - 1)) (tl z.b s.a k (m - 1 - 1)) 1 h0 else h0
  gm .conjTrans .conjTrans (z.mv m) (z.mv k) (z.mv (m + 1)) 1 (s.t (m + 1) m) (tl z.b s.a k m) 1 h1

/-- `H(1:k-1,k)` (compute/pzhetrf_aasen.c:85-117).  The kernels run if the status is `PlasmaSuccess`; it does not change here. -/
def hPre (z : AC) (k : Nat) (s : AS α) : AS α :=
  if s.st ≠ 0 then s else
  (List.range' 1 (k - 1)).foldl (fun s m => { s with h := Function.update s.h m (hCol z k m s) }) s

/-- The products `-L(k,m)*H(m,k)` and their sum in `W3(0)` (compute/pzhetrf_aasen.c:121-159). -/
def w3Sum (z : AC) (k : Nat) (s : AS α) : AS α :=
  let s := (List.range' 1 (k - 1)).foldl (fun s m => { s with w3 := (Function.update s.w3 ((m - 1) % (k - 1))
    (gm .noTrans .noTrans (z.mv k) (z.mv k) (z.mv m) (-1) (tl z.b s.a k (m - 1)) (s.h m) (if m < (k - 1) + 1 then 0 else 1)
      (s.w3 ((m - 1) % (k - 1))))) }) s
  (tree (k - 1)).foldl (fun s p => { s with w3 := Function.update s.w3 p.1 (addK (z.mv k) (z.mv k) (s.w3 p.2) (s.w3 p.1)) }) s

/-- A new tile `T(m,n)`. -/
def setT (m n : Nat) (Y : Tl α) (s : AS α) : AS α := { s with t := Function.update s.t m (Function.update (s.t m) n Y) }

end

section
variable {α : Type v} [Field α] [StarRing α] [DecidableEq α]

/-- `plasma_core_zhegst(1, PlasmaLower, n, A, B)`, which is `LAPACKE_zhegst_work` (core_blas/core_zhegst.c:69-80), by its
documentation: the lower triangle becomes that of `inv(L)*A*inv(L^H)`, `A` Hermitian given by its lower triangle, `L` the lower
triangle of `B`.  Here the diagonal of `B` is one (line 534-541 of compute/pzhetrf_aasen.c), and the model does not divide by it. -/
def hegstK (dv : α → α → α) (n : Nat) (A B : Tl α) : Tl α := fun i j =>
  if j ≤ i ∧ i < n then
    trsmK dv .right .lower .conjTrans .unit n n 1 B (trsmK dv .left .lower .noTrans .unit n n 1 B (herm A)) i j
  else A i j

/-- `T(k,k)` (compute/pzhetrf_aasen.c:119-216). -/
def diagT (dv : α → α → α) (z : AC) (k : Nat) (s : AS α) : AS α :=
  if s.st ≠ 0 then s else
  let s := if 1 < k then
      let s := w3Sum z k s
      setT k k (addK (z.mv k) (z.mv k) (s.w3 0) (cpL (z.mv k) (tl z.b s.a k k) (s.t k k))) s
    else setT k k (expandK (z.mv k) (cpL (z.mv k) (tl z.b s.a k k) (s.t k k))) s
  if 0 < k then
    let s := if 1 < k then
        let s := { s with w := gm .noTrans .noTrans (z.mv k) z.b (z.mv k) 1 (tl z.b s.a k (k - 1)) (s.t k (k - 1)) 0 s.w }
        setT k k (gm .noTrans .conjTrans (z.mv k) (z.mv k) z.b (-1) s.w (tl z.b s.a k (k - 1 - 1)) 1 (s.t k k)) s
      else s
    setT k k (expandK (z.mv k) (hegstK dv (z.mv k) (s.t k k) (tl z.b s.a k (k - 1)))) s
  else s

/-- `H(k,k)` (compute/pzhetrf_aasen.c:218-244). -/
def diagH (z : AC) (k : Nat) (s : AS α) : AS α :=
  if s.st ≠ 0 then s else
  let s := if 1 < k then
      { s with h := (Function.update s.h k
        (gm .noTrans .conjTrans (z.mv k) (z.mv k) z.b 1 (s.t k (k - 1)) (tl z.b s.a k (k - 1 - 1)) 0 (s.h k))) }
    else s
  if k + 1 < z.mt ∧ 0 < k then
    { s with h := (Function.update s.h k
      (gm .noTrans .conjTrans (z.mv k) (z.mv k) (z.mv k) 1 (s.t k k) (tl z.b s.a k (k - 1)) (if 1 < k then 1 else 0) (s.h k))) }
  else s

/-- `num` (compute/pzhetrf_aasen.c:249). -/
def w5num (z : AC) (k : Nat) : Nat := min k (z.wmt / (z.mt - k - 1))

/-- Products into `W5` (compute/pzhetrf_aasen.c:250-288).  These kernels do not look at the status. -/
def w5Mul (z : AC) (k : Nat) (s : AS α) : AS α :=
  (List.range' 1 k).foldl (fun s n => (List.range' (k + 1) (z.mt - k - 1)).foldl (fun s m =>
    let id := (m - k - 1) + ((n - 1) % w5num z k) * (z.mt - k - 1)
    { s with w5 := (Function.update s.w5 id (gm .noTrans .noTrans (z.mv m) (z.mv k) (z.mv n) (-1) (tl z.b s.a m (n - 1)) (s.h n)
        (if n < w5num z k + 1 then 0 else 1) (s.w5 id))) }) s) s

/-- Their sum (compute/pzhetrf_aasen.c:289-329). -/
def w5Sum (z : AC) (k : Nat) (s : AS α) : AS α :=
  (tree (w5num z k)).foldl (fun s p => (List.range' (k + 1) (z.mt - k - 1)).foldl (fun s m =>
    { s with w5 := (Function.update s.w5 ((m - k - 1) + p.1 * (z.mt - k - 1)) (addK (z.mv m) (z.mv k)
        (s.w5 ((m - k - 1) + p.2 * (z.mt - k - 1))) (s.w5 ((m - k - 1) + p.1 * (z.mt - k - 1))))) }) s) s

/-- The sum is added to column `k` (compute/pzhetrf_aasen.c:330-363). -/
def w5Add (z : AC) (k : Nat) (s : AS α) : AS α :=
  (List.range' (k + 1) (z.mt - k - 1)).foldl (fun s m =>
    { s with a := put z.b s.a m k (z.mv m) (z.mv k) (addK (z.mv m) (z.mv k) (s.w5 (m - k - 1)) (tl z.b s.a m k)) }) s

/-- The update of column `k` without workspace (compute/pzhetrf_aasen.c:365-409). -/
def colDirect (z : AC) (k : Nat) (s : AS α) : AS α :=
  (List.range' 1 k).foldl (fun s n => (List.range' (k + 1) (z.mt - k - 1)).foldl (fun s m =>
    { s with a := (put z.b s.a m k (z.mv m) (z.mv k)
      (gm .noTrans .noTrans (z.mv m) (z.mv k) (z.mv n) (-1) (tl z.b s.a m (n - 1)) (s.h n) 1 (tl z.b s.a m k))) }) s) s

/-- The update of column `k` (compute/pzhetrf_aasen.c:245-410). -/
def colUpd (z : AC) (k : Nat) (s : AS α) : AS α :=
  if 0 < k then
    if z.mt - k < z.mth then w5Add z k (w5Sum z k (w5Mul z k s)) else colDirect z k s
  else s

/-- Sizes of the panel kernel (compute/pzhetrf_aasen.c:419-430, 458-462). -/
def pCfg (z : AC) (k : Nat) : Cfg where
  b := z.b
  ib := z.ib
  size := min z.mpt (z.mt - (k + 1))
  M := z.N - (k + 1) * z.b
  N := z.mv k

variable {γ : Type w} [LinearOrder γ]

/-- The memory of the panel kernel at the end: by `panel_run` the result of every interleaving of its ranks
(compute/pzhetrf_aasen.c:450-473). -/
noncomputable def pOut (mag : α → γ) (dv : α → α → α) (big : α → Bool) (z : AC) (k : Nat) (X : Nat → Nat → α) : PS α :=
  phasesRun (pCfg z k).size (phases (pCfg z k) mag dv big) fun x i c =>
    match x with
    | .a l => (X ((k + 1) * z.b + (l * z.b + i)) (k * z.b + c), 0)
    | _ => (0, 0)

/-- The panel task (compute/pzhetrf_aasen.c:432-485); allocations succeed. -/
noncomputable def panelS (mag : α → γ) (dv : α → α → α) (big : α → Bool) (z : AC) (k : Nat) (s : AS α) : AS α :=
  let o := pOut mag dv big z k s.a
  let lo := (k + 1) * z.b
  if s.st ≠ 0 then
    { s with piv := fun i => if lo ≤ i ∧ i < lo + min (z.N - lo) (z.mv k) then s.piv i + lo else s.piv i }
  else
  { s with
    a := put z.b s.a (k + 1) k (z.N - lo) (z.mv k) (num (pCfg z k) o)
    piv := fun i => if lo ≤ i ∧ i < lo + min (z.N - lo) (z.mv k) then pivv o (i - lo) + lo else s.piv i
    st := if infov o = 0 then 0 else lo + infov o }

/-- Rows of the previous columns (compute/pzhetrf_aasen.c:490-511): `plasma_core_zgeswp` for the tile columns `0 .. k-1`. -/
def rowSwap (z : AC) (k : Nat) (s : AS α) : AS α :=
  let lo := (k + 1) * z.b
  if s.st ≠ 0 then s else
  { s with a := fun r c => if c < k * z.b then
      interch (List.range' lo (min (z.N - lo) (z.mv k))) (fun i => s.piv i - 1) s.a r c else s.a r c }

/-- `T(k+1,k)` (compute/pzhetrf_aasen.c:513-541); `plasma_core_omp_zlaset` does not look at the status. -/
def offT (dv : α → α → α) (z : AC) (k : Nat) (s : AS α) : AS α :=
  let s := if s.st ≠ 0 then s else setT (k + 1) k (cpU (z.mv (k + 1)) (z.mv k) (tl z.b s.a (k + 1) k) (s.t (k + 1) k)) s
  let s := { s with a := put z.b s.a (k + 1) k (z.mv (k + 1)) (z.mv k) (setU (z.mv (k + 1)) (z.mv k) (tl z.b s.a (k + 1) k)) }
  if s.st = 0 ∧ 0 < k then
    setT (k + 1) k (fun i j => if i < z.mv (k + 1) ∧ j < z.mv k then
      trsmK dv .right .lower .conjTrans .unit (z.mv (k + 1)) (z.mv k) 1 (tl z.b s.a k (k - 1)) (s.t (k + 1) k) i j
      else s.t (k + 1) k i j) s
  else s

/-- Symmetric interchanges of the rest of the matrix (compute/pzhetrf_aasen.c:543-575): by `he_exec` the result does not depend
on the order of the ranks.  Does not look at the status. -/
def symSwap (z : AC) (k : Nat) (s : AS α) : AS α :=
  let lo := (k + 1) * z.b
  { s with a := heswp z.N z.b lo (min z.mpt (z.mt - (k + 1))) (fun i => s.piv i - 1) (min (z.N - lo) (z.mv k)) s.a }

/-- Copy to the band matrix (compute/pzhetrf_aasen.c:578-626).  Does not look at the status. -/
def copyT (z : AC) (k : Nat) (s : AS α) : AS α :=
  let tb := put z.b s.tb k k (z.mv k) (z.mv k) (s.t k k)
  let tb := if k + 1 < z.mt then put z.b tb (k + 1) k (z.mv (k + 1)) (z.mv k) (s.t (k + 1) k) else tb
  let tb := if 0 < k then put z.b tb (k - 1) k (z.mv (k - 1)) (z.mv k) (fun i j => star (s.t k (k - 1) j i)) else tb
  { s with tb := tb }

/-- One step (compute/pzhetrf_aasen.c:79-627). -/
noncomputable def stepA (mag : α → γ) (dv : α → α → α) (big : α → Bool) (z : AC) (s : AS α) (k : Nat) : AS α :=
  let s := diagH z k (diagT dv z k (hPre z k s))
  let s := if k + 1 < z.mt then
      symSwap z k (offT dv z k (rowSwap z k (panelS mag dv big z k (colUpd z k s))))
    else s
  copyT z k s

/-- State at the start: the workspace is cleared and the first pivots set (compute/zhetrf.c:176-178).  The band matrix is cleared by
`plasma_zhetrf`; in `plasma_zhesv` it contains what `plasma_omp_zpb2desc` took from the user's array `pT` (compute/zhesv.c:216-228). -/
def startA (z : AC) (A : Nat → Nat → α) (piv : Nat → Nat) (tb : Nat → Nat → α := fun _ _ => 0) : AS α where
  a := A
  t := fun _ _ _ _ => 0
  h := fun _ _ _ => 0
  w3 := fun _ _ _ => 0
  w := fun _ _ => 0
  w5 := fun _ _ _ => 0
  tb := tb
  piv := fun i => if i < z.b then i + 1 else piv i
  st := 0

/-- The first `K` steps. -/
noncomputable def stepsA (mag : α → γ) (dv : α → α → α) (big : α → Bool) (z : AC) (s : AS α) (K : Nat) : AS α :=
  (List.range K).foldl (stepA mag dv big z) s

end

end Verif.Aasen

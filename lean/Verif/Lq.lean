/-
Tile LQ: compute/pzgelqf.c, compute/pzgelqf_tree.c, compute/pzunmlq.c, compute/pzunmlq_tree.c, compute/pzunglq.c,
compute/pzunglq_tree.c.
-/
import Verif.Qr

namespace Verif.Qr

open Verif.Layout Verif.Tile Verif.Tree Finset Matrix

universe u v

section
variable {M : Type u} {α : Type v} [CommRing α] [StarRing α]

/-- Conjugate transpose of the contents of a tile. -/
def cT (X : Nat → Nat → α) (i j : Nat) : α := star (X j i)

/-- Lower triangle of the first `m` rows. -/
def loTo (m : Nat) (i j : Nat) : Prop := j ≤ i ∧ i < m

/-- Lower trapezoid of an `m` by `n` tile. -/
def loBoxD (m n : Nat) (i j : Nat) : Prop := j ≤ i ∧ i < m ∧ j < n

/-- Part above the diagonal of an `m` by `n` tile. -/
def upS (m n : Nat) (i j : Nat) : Prop := i < j ∧ i < m ∧ j < n

/-- `plasma_core_omp_zgelqt` (core_blas/core_zgelqt.c:172-200): `inout` A, `out` T.  The kernel (:89-169) conjugates a
row, makes the reflector that annihilates it (`zgelq2`, `zlarfg`) and applies it from the right to the rows below; the
row keeps the conjugated reflector.  These are the operations of `plasma_core_zgeqrt` on the conjugate transpose of the
tile, and they are modelled so: `K` is the record of the QR kernels. -/
noncomputable def gelqtT (K : QrKern α) (m n ib : Nat) (A T : M) : TTask M α :=
  wop [] [⟨A, box m n, fun s => cT (K.gA n m ib (cT (s A)))⟩, ⟨T, tReg ib (min m n), fun s => K.gT n m ib (cT (s A))⟩]

/-- `plasma_core_omp_ztslqt` (core_blas/core_ztslqt.c:96-256): `inout` A1, A2, `out` T; conjugation of the rows at
:162-163 and :197-198, simplification as in `gelqtT`. -/
noncomputable def tslqtT (K : QrKern α) (m n ib : Nat) (A1 A2 T : M) : TTask M α :=
  wop [] [⟨A1, loTo m, fun s => cT (K.sA1 n m ib (cT (s A1)) (cT (s A2)) (s T))⟩,
    ⟨A2, box m n, fun s => cT (K.sA2 n m ib (cT (s A1)) (cT (s A2)) (s T))⟩,
    ⟨T, tReg ib m, fun s => K.sT n m ib (cT (s A1)) (cT (s A2)) (s T)⟩]

/-- `plasma_core_omp_zttlqt` (core_blas/core_zttlqt.c:86-270): `inout` A1, A2, `out` T; conjugation of the
rows at :157-158 and :213-214, simplification as in `gelqtT`. -/
noncomputable def ttlqtT (K : QrKern α) (m n ib : Nat) (A1 A2 T : M) : TTask M α :=
  wop [] [⟨A1, loTo m, fun s => cT (K.tA1 n m ib (cT (s A1)) (cT (s A2)) (s T))⟩,
    ⟨A2, loBoxD m n, fun s => cT (K.tA2 n m ib (cT (s A1)) (cT (s A2)) (s T))⟩,
    ⟨T, tReg ib m, fun s => K.tT n m ib (cT (s A1)) (cT (s A2)) (s T)⟩]

/-- `plasma_core_omp_zunmlq` with `PlasmaLeft` (core_blas/core_zunmlq.c:105-277): `C := op(Q) C`.  The reflectors are the
rows of `V`; `Q` is the conjugate transpose of their product `H` (`trans` is negated at :199-202).  The blocks are
applied one after the other, from the first or from the last (:189-197); here they are multiplied first. -/
noncomputable def unmlqL (t : Bool) (m n k ib : Nat) (V T C : M) : TTask M α :=
  op2 V (upS k m) T (tReg ib k) C (box m n) fun v τ c => lmul (qop (!t) (wy m k ib (geV (cT v)) τ)) c

/-- `plasma_core_omp_zunmlq` with `PlasmaRight`: `C := C op(Q)`. -/
noncomputable def unmlqR (t : Bool) (m n k ib : Nat) (V T C : M) : TTask M α :=
  op2 V (upS k n) T (tReg ib k) C (box m n) fun v τ c => rmul c (qop (!t) (wy n k ib (geV (cT v)) τ))

/-- The read part of `V`: `k` rows of a square (`ts`) or triangular (`tt`) tile. -/
def lvReg (tri : Bool) (k m : Nat) : Nat → Nat → Prop := if tri then loBoxD k m else box k m

/-- `plasma_core_omp_ztsmlq` (core_blas/core_ztsmlq.c:119-290), `tri = false`, and `plasma_core_omp_zttmlq`
(core_blas/core_zttmlq.c:117-294), `tri = true`, with `PlasmaLeft`: `op(Q)` applied to `A1` on top of `A2`; `trans` is
negated at core_ztsmlq.c:218-221 and core_zttmlq.c:216-219.  Simplification as in `unmlqL`. -/
noncomputable def stmlqL (tri t : Bool) (m1 n m2 k ib : Nat) (A1 A2 V T : M) : TTask M α :=
  wop [(V, lvReg tri k m2), (T, tReg ib k)]
    [⟨A1, box m1 n, fun s i j =>
        lmul (qop (!t) (wy (m1 + m2) k ib (stV tri m1 (cT (s V))) (s T))) (vstack m1 (s A1) (s A2)) i j⟩,
     ⟨A2, box m2 n, fun s i j =>
        lmul (qop (!t) (wy (m1 + m2) k ib (stV tri m1 (cT (s V))) (s T))) (vstack m1 (s A1) (s A2)) (m1 + i) j⟩]

/-- The same kernels with `PlasmaRight`: `A1` beside `A2` times `op(Q)`. -/
noncomputable def stmlqR (tri t : Bool) (m n1 n2 k ib : Nat) (A1 A2 V T : M) : TTask M α :=
  wop [(V, lvReg tri k n2), (T, tReg ib k)]
    [⟨A1, box m n1, fun s i j =>
        rmul (hstack n1 (s A1) (s A2)) (qop (!t) (wy (n1 + n2) k ib (stV tri n1 (cT (s V))) (s T))) i j⟩,
     ⟨A2, box m n2, fun s i j =>
        rmul (hstack n1 (s A1) (s A2)) (qop (!t) (wy (n1 + n2) k ib (stV tri n1 (cT (s V))) (s T))) i (n1 + j)⟩]

/-! ### Loop nests

An operation `ge j k` acts on tile column `k` with the reflectors of tile row `j`; `ts j m k` and `tt j m k` eliminate
tile `(j, m)` with tile `(j, k)` (compute/pzgelqf_tree.c:41,50-51: the operations of the transposed tile matrix). -/

/-- Number of reflectors of the two-tile kernels: `imin(mvaj, nvakpiv+nvak)` (compute/pzgelqf_tree.c:98,125,
compute/pzunglq_tree.c:88,108) if `plus`, `imin(mvaj, nvakpiv)` (compute/pzunmlq_tree.c:104,125,191,210) otherwise. -/
def lcnt (plus : Bool) (A : Desc) (j m k : Nat) : Nat :=
  min (A.mview j) (if plus then A.nview k + A.nview m else A.nview k)

/-- Update of the tile columns `cols` of `C` (compute/pzunmlq_tree.c:77-133); `off m` is the tile column of `T` used by
the two-tile kernels (macro `T2`, compute/pzunmlq_tree.c:25). -/
noncomputable def lupdL (plus t : Bool) (ib : Nat) (off : Nat → Nat) (A T C : TMat M) (cols : List Nat) :
    Op → List (TTask (M × Nat × Nat) α)
  | .ge j k => cols.map fun n =>
      unmlqL t (C.d.mview k) (C.d.nview n) (min (A.d.mview j) (A.d.nview k)) ib (A.at' j k) (T.at' j k) (C.at' k n)
  | .ts j m k => cols.map fun n =>
      stmlqL false t (C.d.mview k) (C.d.nview n) (C.d.mview m) (lcnt plus A.d j m k) ib
        (C.at' k n) (C.at' m n) (A.at' j m) (T.at' j (off m))
  | .tt j m k => cols.map fun n =>
      stmlqL true t (C.d.mview k) (C.d.nview n) (C.d.mview m) (lcnt plus A.d j m k) ib
        (C.at' k n) (C.at' m n) (A.at' j m) (T.at' j (off m))

/-- Update of the tile rows `rows` of `C` from the right (compute/pzgelqf_tree.c:66-78,92-105,119-132,
compute/pzunmlq_tree.c:165-218, compute/pzunglq_tree.c:61-116). -/
noncomputable def lupdR (plus t : Bool) (ib : Nat) (off : Nat → Nat) (A T C : TMat M) (rows : List Nat) :
    Op → List (TTask (M × Nat × Nat) α)
  | .ge j k => rows.map fun m =>
      unmlqR t (C.d.mview m) (C.d.nview k) (min (A.d.mview j) (A.d.nview k)) ib (A.at' j k) (T.at' j k) (C.at' m k)
  | .ts j m k => rows.map fun r =>
      stmlqR false t (C.d.mview r) (C.d.nview k) (C.d.nview m) (lcnt plus A.d j m k) ib
        (C.at' r k) (C.at' r m) (A.at' j m) (T.at' j (off m))
  | .tt j m k => rows.map fun r =>
      stmlqR true t (C.d.mview r) (C.d.nview k) (C.d.nview m) (lcnt plus A.d j m k) ib
        (C.at' r k) (C.at' r m) (A.at' j m) (T.at' j (off m))

/-- Factorization kernel of an operation (compute/pzgelqf_tree.c:59-64,84-90,111-117). -/
noncomputable def lkerT (K : QrKern α) (ib : Nat) (off : Nat → Nat) (A T : TMat M) : Op → TTask (M × Nat × Nat) α
  | .ge j k => gelqtT K (A.d.mview j) (A.d.nview k) ib (A.at' j k) (T.at' j k)
  | .ts j m k => tslqtT K (A.d.mview j) (A.d.nview m) ib (A.at' j k) (A.at' j m) (T.at' j (off m))
  | .tt j m k => ttlqtT K (A.d.mview j) (A.d.nview m) ib (A.at' j k) (A.at' j m) (T.at' j (off m))

/-- Body of the loop over the operations (compute/pzgelqf_tree.c:47-138). -/
noncomputable def lfacT (K : QrKern α) (ib : Nat) (off : Nat → Nat) (A T : TMat M) (o : Op) :
    List (TTask (M × Nat × Nat) α) :=
  lkerT K ib off A T o :: lupdR true true ib off A T A (span (o.col + 1) A.d.mt) o

/-- `plasma_pzgelqf_tree` (compute/pzgelqf_tree.c:28-141) for the list of operations `ops`. -/
noncomputable def pzgelqfTree (K : QrKern α) (ops : List Op) (A T : TMat M) : List (TTask (M × Nat × Nat) α) :=
  ops.flatMap (lfacT K T.d.mb (t2 T) A T)

/-- `plasma_pzunmlq_tree` (compute/pzunmlq_tree.c:31-227); `l`: `PlasmaLeft`; `t`: `Plasma_ConjTrans`. -/
noncomputable def pzunmlqTree (l t : Bool) (ops : List Op) (A T B : TMat M) : List (TTask (M × Nat × Nat) α) :=
  if l then (if t then ops.reverse else ops).flatMap (lupdL false t T.d.mb (t2 T) A T B (List.range B.d.nt))
  else (if t then ops else ops.reverse).flatMap (lupdR false t T.d.mb (t2 T) A T B (List.range B.d.mt))

/-- `plasma_pzunglq_tree` (compute/pzunglq_tree.c:30-124). -/
noncomputable def pzunglqTree (ops : List Op) (A T Q : TMat M) : List (TTask (M × Nat × Nat) α) :=
  ops.reverse.flatMap fun o => lupdR true false T.d.mb (t2 T) A T Q (span o.col Q.d.mt) o

/-- `plasma_pzgelqf` (compute/pzgelqf.c:28-87). -/
noncomputable def pzgelqf (K : QrKern α) (A T : TMat M) : List (TTask (M × Nat × Nat) α) :=
  (List.range (min A.d.mt A.d.nt)).flatMap fun k =>
    gelqtT K (A.d.mview k) (A.d.nview k) T.d.mb (A.at' k k) (T.at' k k) ::
    ((span (k + 1) A.d.mt).map fun m =>
      unmlqR true (A.d.mview m) (A.d.nview k) (min (A.d.mview k) (A.d.nview k)) T.d.mb
        (A.at' k k) (T.at' k k) (A.at' m k)) ++
    (span (k + 1) A.d.nt).flatMap fun n =>
      tslqtT K (A.d.mview k) (A.d.nview n) T.d.mb (A.at' k k) (A.at' k n) (T.at' k n) ::
      (span (k + 1) A.d.mt).map fun m =>
        stmlqR false true (A.d.mview m) A.d.nb (A.d.nview n) (A.d.mview k) T.d.mb
          (A.at' m k) (A.at' m n) (A.at' k n) (T.at' k n)

/-- `plasma_pzunmlq` (compute/pzunmlq.c:29-201). -/
noncomputable def pzunmlq (l t : Bool) (A T B : TMat M) : List (TTask (M × Nat × Nat) α) :=
  if l then
    if t then
      (List.range (min A.d.mt A.d.nt)).reverse.flatMap fun k =>
        ((span (k + 1) B.d.mt).reverse.flatMap fun m => (List.range B.d.nt).map fun n =>
          stmlqL false t B.d.mb (B.d.nview n) (B.d.mview m) (A.d.mview k) T.d.mb
            (B.at' k n) (B.at' m n) (A.at' k m) (T.at' k m)) ++
        (List.range B.d.nt).map fun n =>
          unmlqL t (B.d.mview k) (B.d.nview n) (min (A.d.nview k) (A.d.mview k)) T.d.mb
            (A.at' k k) (T.at' k k) (B.at' k n)
    else
      (List.range (min A.d.mt A.d.nt)).flatMap fun k =>
        ((List.range B.d.nt).map fun n =>
          unmlqL t (B.d.mview k) (B.d.nview n) (min (A.d.nview k) (A.d.mview k)) T.d.mb
            (A.at' k k) (T.at' k k) (B.at' k n)) ++
        (span (k + 1) B.d.mt).flatMap fun m => (List.range B.d.nt).map fun n =>
          stmlqL false t B.d.mb (B.d.nview n) (B.d.mview m) (A.d.mview k) T.d.mb
            (B.at' k n) (B.at' m n) (A.at' k m) (T.at' k m)
  else
    if t then
      (List.range (min A.d.mt A.d.nt)).flatMap fun k =>
        ((List.range B.d.mt).map fun m =>
          unmlqR t (B.d.mview m) (B.d.nview k) (min (A.d.nview k) (A.d.mview k)) T.d.mb
            (A.at' k k) (T.at' k k) (B.at' m k)) ++
        (span (k + 1) B.d.nt).flatMap fun n => (List.range B.d.mt).map fun m =>
          stmlqR false t (B.d.mview m) B.d.nb (B.d.nview n) (A.d.mview k) T.d.mb
            (B.at' m k) (B.at' m n) (A.at' k n) (T.at' k n)
    else
      (List.range (min A.d.mt A.d.nt)).reverse.flatMap fun k =>
        ((span (k + 1) B.d.nt).reverse.flatMap fun n => (List.range B.d.mt).map fun m =>
          stmlqR false t (B.d.mview m) B.d.nb (B.d.nview n) (A.d.mview k) T.d.mb
            (B.at' m k) (B.at' m n) (A.at' k n) (T.at' k n)) ++
        (List.range B.d.mt).map fun m =>
          unmlqR t (B.d.mview m) (B.d.nview k) (min (A.d.nview k) (A.d.mview k)) T.d.mb
            (A.at' k k) (T.at' k k) (B.at' m k)

/-- `plasma_pzunglq` (compute/pzunglq.c:28-73). -/
noncomputable def pzunglq (A T Q : TMat M) : List (TTask (M × Nat × Nat) α) :=
  (List.range (min A.d.mt A.d.nt)).reverse.flatMap fun k =>
    ((span (k + 1) Q.d.nt).reverse.flatMap fun n => (span k Q.d.mt).map fun m =>
      stmlqR false false (Q.d.mview m) Q.d.nb (Q.d.nview n) (A.d.mview k) T.d.mb
        (Q.at' m k) (Q.at' m n) (A.at' k n) (T.at' k n)) ++
    (span k Q.d.mt).map fun m =>
      unmlqR false (Q.d.mview m) (Q.d.nview k) (min (A.d.nview k) (A.d.mview k)) T.d.mb
        (A.at' k k) (T.at' k k) (Q.at' m k)

end

end Verif.Qr

/-
Tile QR: compute/pzgeqrf.c, compute/pzgeqrf_tree.c, compute/pzunmqr.c, compute/pzunmqr_tree.c, compute/pzungqr.c,
compute/pzungqr_tree.c.
-/
import Verif.QrMath
import Verif.Wop
import Verif.Tree

namespace Verif.Qr

open Verif.Layout Verif.Tile Verif.Tree Finset Matrix

universe u v

section
variable {M : Type u} {α : Type v} [CommRing α] [StarRing α]

/-- The factorization kernels: new contents of the tiles that they write, as functions of `m`, `n`, `ib` and of the
old contents.  `gA`, `gT`: `plasma_core_zgeqrt` (core_blas/core_zgeqrt.c:89-199), tiles `A`, `T`.  `sA1`, `sA2`, `sT`:
`plasma_core_ztsqrt` (core_blas/core_ztsqrt.c:86-243), tiles `A1`, `A2`, `T`.  `tA1`, `tA2`, `tT`:
`plasma_core_zttqrt` (core_blas/core_zttqrt.c:86-269).  The last argument of the two-tile kernels is what `T` holds before
the call. -/
structure QrKern (α : Type v) where
  gA : Nat → Nat → Nat → Tl α → Tl α
  gT : Nat → Nat → Nat → Tl α → Tl α
  sA1 : Nat → Nat → Nat → Tl α → Tl α → Tl α → Tl α
  sA2 : Nat → Nat → Nat → Tl α → Tl α → Tl α → Tl α
  sT : Nat → Nat → Nat → Tl α → Tl α → Tl α → Tl α
  tA1 : Nat → Nat → Nat → Tl α → Tl α → Tl α → Tl α
  tA2 : Nat → Nat → Nat → Tl α → Tl α → Tl α → Tl α
  tT : Nat → Nat → Nat → Tl α → Tl α → Tl α → Tl α

/-- Upper triangle of the first `n` columns. -/
def upTo (n : Nat) (i j : Nat) : Prop := i ≤ j ∧ j < n

/-- Upper trapezoid of an `m` by `n` tile. -/
def upBox (m n : Nat) (i j : Nat) : Prop := i ≤ j ∧ i < m ∧ j < n

/-- Part below the diagonal of an `m` by `n` tile. -/
def loBox (m n : Nat) (i j : Nat) : Prop := j < i ∧ i < m ∧ j < n

/-- What the kernels compute: the new contents depend only on the operands; `Q` as used by the application kernels is
unitary; `Q` times the new triangle is the old matrix.  The kernel for two triangles is asked to do this only if `T` is
zero before the call. -/
structure QrSpec (K : QrKern α) : Prop where
  ge_loc : ∀ m n ib (A A' : Tl α), (∀ i j, box m n i j → A i j = A' i j) →
    (∀ i j, box m n i j → K.gA m n ib A i j = K.gA m n ib A' i j) ∧
    (∀ l c, tReg ib (min m n) l c → K.gT m n ib A l c = K.gT m n ib A' l c)
  ge_unit : ∀ m n ib (A : Tl α), 0 < ib →
    wy m (min m n) ib (geV (K.gA m n ib A)) (K.gT m n ib A) ∈ unitaryGroup (Fin m) α
  ge_eq : ∀ m n ib (A : Tl α), 0 < ib → ∀ i j, i < m → j < n →
    lmul (wy m (min m n) ib (geV (K.gA m n ib A)) (K.gT m n ib A)) (triu (K.gA m n ib A)) i j = A i j
  ts_loc : ∀ m n ib (A1 A1' A2 A2' T T' : Tl α), (∀ i j, upTo n i j → A1 i j = A1' i j) →
    (∀ i j, box m n i j → A2 i j = A2' i j) → (∀ l c, tReg ib n l c → T l c = T' l c) →
    (∀ i j, upTo n i j → K.sA1 m n ib A1 A2 T i j = K.sA1 m n ib A1' A2' T' i j) ∧
    (∀ i j, box m n i j → K.sA2 m n ib A1 A2 T i j = K.sA2 m n ib A1' A2' T' i j) ∧
    (∀ l c, tReg ib n l c → K.sT m n ib A1 A2 T l c = K.sT m n ib A1' A2' T' l c)
  ts_unit : ∀ m n ib (A1 A2 T : Tl α) m1, 0 < m → 0 < n → 0 < ib → n ≤ m1 →
    wy (m1 + m) n ib (tsV m1 (K.sA2 m n ib A1 A2 T)) (K.sT m n ib A1 A2 T) ∈ unitaryGroup (Fin (m1 + m)) α
  ts_eq : ∀ m n ib (A1 A2 T : Tl α) m1, 0 < m → 0 < n → 0 < ib → n ≤ m1 → ∀ i j, i < m1 + m → j < n →
    lmul (wy (m1 + m) n ib (tsV m1 (K.sA2 m n ib A1 A2 T)) (K.sT m n ib A1 A2 T))
      (vstack m1 (triu (K.sA1 m n ib A1 A2 T)) (fun _ _ => 0)) i j = vstack m1 (triu A1) A2 i j
  tt_loc : ∀ m n ib (A1 A1' A2 A2' T T' : Tl α), (∀ i j, upTo n i j → A1 i j = A1' i j) →
    (∀ i j, upBox m n i j → A2 i j = A2' i j) → (∀ l c, tReg ib n l c → T l c = T' l c) →
    (∀ i j, upTo n i j → K.tA1 m n ib A1 A2 T i j = K.tA1 m n ib A1' A2' T' i j) ∧
    (∀ i j, upBox m n i j → K.tA2 m n ib A1 A2 T i j = K.tA2 m n ib A1' A2' T' i j) ∧
    (∀ l c, tReg ib n l c → K.tT m n ib A1 A2 T l c = K.tT m n ib A1' A2' T' l c)
  tt_unit : ∀ m n ib (A1 A2 T : Tl α) m1, 0 < m → 0 < n → 0 < ib → n ≤ m1 → (∀ l c, tReg ib n l c → T l c = 0) →
    wy (m1 + m) n ib (ttV m1 (K.tA2 m n ib A1 A2 T)) (K.tT m n ib A1 A2 T) ∈ unitaryGroup (Fin (m1 + m)) α
  tt_eq : ∀ m n ib (A1 A2 T : Tl α) m1, 0 < m → 0 < n → 0 < ib → n ≤ m1 → (∀ l c, tReg ib n l c → T l c = 0) →
    ∀ i j, i < m1 + m → j < n →
    lmul (wy (m1 + m) n ib (ttV m1 (K.tA2 m n ib A1 A2 T)) (K.tT m n ib A1 A2 T))
      (vstack m1 (triu (K.tA1 m n ib A1 A2 T)) (fun _ _ => 0)) i j = vstack m1 (triu A1) (triu A2) i j

/-- `plasma_core_omp_zgeqrt` (core_blas/core_zgeqrt.c:202-240): `inout` A, `out` T. -/
noncomputable def geqrtT (K : QrKern α) (m n ib : Nat) (A T : M) : TTask M α :=
  wop [] [⟨A, box m n, fun s => K.gA m n ib (s A)⟩, ⟨T, tReg ib (min m n), fun s => K.gT m n ib (s A)⟩]

/-- `plasma_core_omp_ztsqrt` (core_blas/core_ztsqrt.c:246-286): `inout` A1, A2, `out` T. -/
noncomputable def tsqrtT (K : QrKern α) (m n ib : Nat) (A1 A2 T : M) : TTask M α :=
  wop [] [⟨A1, upTo n, fun s => K.sA1 m n ib (s A1) (s A2) (s T)⟩, ⟨A2, box m n, fun s => K.sA2 m n ib (s A1) (s A2) (s T)⟩,
    ⟨T, tReg ib n, fun s => K.sT m n ib (s A1) (s A2) (s T)⟩]

/-- `plasma_core_omp_zttqrt` (core_blas/core_zttqrt.c:272-312): `inout` A1, A2, `out` T. -/
noncomputable def ttqrtT (K : QrKern α) (m n ib : Nat) (A1 A2 T : M) : TTask M α :=
  wop [] [⟨A1, upTo n, fun s => K.tA1 m n ib (s A1) (s A2) (s T)⟩, ⟨A2, upBox m n, fun s => K.tA2 m n ib (s A1) (s A2) (s T)⟩,
    ⟨T, tReg ib n, fun s => K.tT m n ib (s A1) (s A2) (s T)⟩]

/-- `plasma_core_omp_zunmqr` with `PlasmaLeft` (core_blas/core_zunmqr.c:187-268): `C := op(Q) C`.  The blocks are
applied one after the other in the order that makes the result `Q C` or `Q^H C`; here they are multiplied first. -/
noncomputable def unmqrL (t : Bool) (m n k ib : Nat) (V T C : M) : TTask M α :=
  op2 V (loBox m k) T (tReg ib k) C (box m n) fun v τ c => lmul (qop t (wy m k ib (geV v) τ)) c

/-- `plasma_core_omp_zunmqr` with `PlasmaRight`: `C := C op(Q)`. -/
noncomputable def unmqrR (t : Bool) (m n k ib : Nat) (V T C : M) : TTask M α :=
  op2 V (loBox n k) T (tReg ib k) C (box m n) fun v τ c => rmul c (qop t (wy n k ib (geV v) τ))

/-- The read part of `V` and the reflectors: square (`ts`) or triangular (`tt`) tile. -/
def vReg (tri : Bool) (m k : Nat) : Nat → Nat → Prop := if tri then upBox m k else box m k

/-- Reflectors of the two-tile kernels. -/
def stV (tri : Bool) (m1 : Nat) (V : Nat → Nat → α) : Nat → Nat → α := if tri then ttV m1 V else tsV m1 V

/-- `plasma_core_omp_ztsmqr` (core_blas/core_ztsmqr.c:203-286), `tri = false`, and `plasma_core_omp_zttmqr`
(core_blas/core_zttmqr.c:204-293), `tri = true`, with `PlasmaLeft`: `op(Q)` applied to `A1` on top of `A2`.
Simplification as in `unmqrL`; the arguments pass the checks of the kernels (`k ≤ m1`). -/
noncomputable def stmqrL (tri t : Bool) (m1 n m2 k ib : Nat) (A1 A2 V T : M) : TTask M α :=
  wop [(V, vReg tri m2 k), (T, tReg ib k)]
    [⟨A1, box m1 n, fun s i j => lmul (qop t (wy (m1 + m2) k ib (stV tri m1 (s V)) (s T))) (vstack m1 (s A1) (s A2)) i j⟩,
     ⟨A2, box m2 n, fun s i j =>
        lmul (qop t (wy (m1 + m2) k ib (stV tri m1 (s V)) (s T))) (vstack m1 (s A1) (s A2)) (m1 + i) j⟩]

/-- The same kernels with `PlasmaRight`: `A1` beside `A2` times `op(Q)`. -/
noncomputable def stmqrR (tri t : Bool) (m n1 n2 k ib : Nat) (A1 A2 V T : M) : TTask M α :=
  wop [(V, vReg tri n2 k), (T, tReg ib k)]
    [⟨A1, box m n1, fun s i j => rmul (hstack n1 (s A1) (s A2)) (qop t (wy (n1 + n2) k ib (stV tri n1 (s V)) (s T))) i j⟩,
     ⟨A2, box m n2, fun s i j =>
        rmul (hstack n1 (s A1) (s A2)) (qop t (wy (n1 + n2) k ib (stV tri n1 (s V)) (s T))) i (n1 + j)⟩]

/-! ### Loop nests -/

/-- Update of the tile columns `cols` of `C` by the transformation of an operation (compute/pzgeqrf_tree.c:63-74,
89-101,116-128, compute/pzunmqr_tree.c:74-127, compute/pzungqr_tree.c:59-112); `off j` is the tile column of `T` used
by the two-tile kernels (macro `T2`, compute/pzgeqrf_tree.c:23). -/
noncomputable def updL (t : Bool) (ib : Nat) (off : Nat → Nat) (A T C : TMat M) (cols : List Nat) :
    Op → List (TTask (M × Nat × Nat) α)
  | .ge j k => cols.map fun n =>
      unmqrL t (C.d.mview k) (C.d.nview n) (min (A.d.mview k) (A.d.nview j)) ib (A.at' k j) (T.at' k j) (C.at' k n)
  | .ts j m k => cols.map fun n =>
      stmqrL false t (C.d.mview k) (C.d.nview n) (C.d.mview m) (min (A.d.mview k + A.d.mview m) (A.d.nview j)) ib
        (C.at' k n) (C.at' m n) (A.at' m j) (T.at' m (off j))
  | .tt j m k => cols.map fun n =>
      stmqrL true t (C.d.mview k) (C.d.nview n) (C.d.mview m) (min (A.d.mview k + A.d.mview m) (A.d.nview j)) ib
        (C.at' k n) (C.at' m n) (A.at' m j) (T.at' m (off j))

/-- Update of the tile rows `rows` of `C` from the right (compute/pzunmqr_tree.c:158-211). -/
noncomputable def updR (t : Bool) (ib : Nat) (off : Nat → Nat) (A T C : TMat M) (rows : List Nat) :
    Op → List (TTask (M × Nat × Nat) α)
  | .ge j k => rows.map fun m =>
      unmqrR t (C.d.mview m) (C.d.nview k) (min (A.d.mview k) (A.d.nview j)) ib (A.at' k j) (T.at' k j) (C.at' m k)
  | .ts j m k => rows.map fun r =>
      stmqrR false t (C.d.mview r) (C.d.nview k) (C.d.nview m) (min (A.d.mview k + A.d.mview m) (A.d.nview j)) ib
        (C.at' r k) (C.at' r m) (A.at' m j) (T.at' m (off j))
  | .tt j m k => rows.map fun r =>
      stmqrR true t (C.d.mview r) (C.d.nview k) (C.d.nview m) (min (A.d.mview k + A.d.mview m) (A.d.nview j)) ib
        (C.at' r k) (C.at' r m) (A.at' m j) (T.at' m (off j))

/-- Factorization kernel of an operation (compute/pzgeqrf_tree.c:56-61,81-87,108-114). -/
noncomputable def kerT (K : QrKern α) (ib : Nat) (off : Nat → Nat) (A T : TMat M) : Op → TTask (M × Nat × Nat) α
  | .ge j k => geqrtT K (A.d.mview k) (A.d.nview j) ib (A.at' k j) (T.at' k j)
  | .ts j m k => tsqrtT K (A.d.mview m) (A.d.nview j) ib (A.at' k j) (A.at' m j) (T.at' m (off j))
  | .tt j m k => ttqrtT K (A.d.mview m) (A.d.nview j) ib (A.at' k j) (A.at' m j) (T.at' m (off j))

/-- Body of the loop over the operations (compute/pzgeqrf_tree.c:45-134). -/
noncomputable def facT (K : QrKern α) (ib : Nat) (off : Nat → Nat) (A T : TMat M) (o : Op) :
    List (TTask (M × Nat × Nat) α) :=
  kerT K ib off A T o :: updL true ib off A T A (span (o.col + 1) A.d.nt) o

/-- Tile column of the macro `T2` (compute/pzgeqrf_tree.c:23). -/
def t2 (T : TMat M) (j : Nat) : Nat := j + T.d.nt / 2

/-- `plasma_pzgeqrf_tree` (compute/pzgeqrf_tree.c:28-137) for the list of operations `ops`. -/
noncomputable def pzgeqrfTree (K : QrKern α) (ops : List Op) (A T : TMat M) : List (TTask (M × Nat × Nat) α) :=
  ops.flatMap (facT K T.d.mb (t2 T) A T)

/-- `plasma_pzunmqr_tree` (compute/pzunmqr_tree.c:31-220); `l`: `PlasmaLeft`; `t`: `Plasma_ConjTrans`. -/
noncomputable def pzunmqrTree (l t : Bool) (ops : List Op) (A T B : TMat M) : List (TTask (M × Nat × Nat) α) :=
  if l then (if t then ops else ops.reverse).flatMap (updL t T.d.mb (t2 T) A T B (List.range B.d.nt))
  else (if t then ops.reverse else ops).flatMap (updR t T.d.mb (t2 T) A T B (List.range B.d.mt))

/-- `plasma_pzungqr_tree` (compute/pzungqr_tree.c:30-120). -/
noncomputable def pzungqrTree (ops : List Op) (A T Q : TMat M) : List (TTask (M × Nat × Nat) α) :=
  ops.reverse.flatMap fun o => updL false T.d.mb (t2 T) A T Q (span o.col Q.d.nt) o

/-- `plasma_pzgeqrf` (compute/pzgeqrf.c:28-86). -/
noncomputable def pzgeqrf (K : QrKern α) (A T : TMat M) : List (TTask (M × Nat × Nat) α) :=
  (List.range (min A.d.mt A.d.nt)).flatMap fun k =>
    geqrtT K (A.d.mview k) (A.d.nview k) T.d.mb (A.at' k k) (T.at' k k) ::
    ((span (k + 1) A.d.nt).map fun n =>
      unmqrL true (A.d.mview k) (A.d.nview n) (min (A.d.mview k) (A.d.nview k)) T.d.mb
        (A.at' k k) (T.at' k k) (A.at' k n)) ++
    (span (k + 1) A.d.mt).flatMap fun m =>
      tsqrtT K (A.d.mview m) (A.d.nview k) T.d.mb (A.at' k k) (A.at' m k) (T.at' m k) ::
      (span (k + 1) A.d.nt).map fun n =>
        stmqrL false true A.d.mb (A.d.nview n) (A.d.mview m) (A.d.nview k) T.d.mb
          (A.at' k n) (A.at' m n) (A.at' m k) (T.at' m k)

/-- `plasma_pzunmqr` (compute/pzunmqr.c:29-205). -/
noncomputable def pzunmqr (l t : Bool) (A T B : TMat M) : List (TTask (M × Nat × Nat) α) :=
  if l then
    if t then
      (List.range (min A.d.mt A.d.nt)).flatMap fun k =>
        ((List.range B.d.nt).map fun n =>
          unmqrL t (B.d.mview k) (B.d.nview n) (min (A.d.nview k) (A.d.mview k)) T.d.mb
            (A.at' k k) (T.at' k k) (B.at' k n)) ++
        (span (k + 1) B.d.mt).flatMap fun m => (List.range B.d.nt).map fun n =>
          stmqrL false t B.d.mb (B.d.nview n) (B.d.mview m) (A.d.nview k) T.d.mb
            (B.at' k n) (B.at' m n) (A.at' m k) (T.at' m k)
    else
      (List.range (min A.d.mt A.d.nt)).reverse.flatMap fun k =>
        ((span (k + 1) B.d.mt).reverse.flatMap fun m => (List.range B.d.nt).map fun n =>
          stmqrL false t B.d.mb (B.d.nview n) (B.d.mview m) (A.d.nview k) T.d.mb
            (B.at' k n) (B.at' m n) (A.at' m k) (T.at' m k)) ++
        (List.range B.d.nt).map fun n =>
          unmqrL t (B.d.mview k) (B.d.nview n) (min (A.d.nview k) (A.d.mview k)) T.d.mb
            (A.at' k k) (T.at' k k) (B.at' k n)
  else
    if t then
      (List.range (min A.d.mt A.d.nt)).reverse.flatMap fun k =>
        ((span (k + 1) B.d.nt).reverse.flatMap fun n => (List.range B.d.mt).map fun m =>
          stmqrR false t (B.d.mview m) B.d.nb (B.d.nview n) (A.d.nview k) T.d.mb
            (B.at' m k) (B.at' m n) (A.at' n k) (T.at' n k)) ++
        (List.range B.d.mt).map fun m =>
          unmqrR t (B.d.mview m) (B.d.nview k) (min (A.d.nview k) (A.d.mview k)) T.d.mb
            (A.at' k k) (T.at' k k) (B.at' m k)
    else
      (List.range (min A.d.mt A.d.nt)).flatMap fun k =>
        ((List.range B.d.mt).map fun m =>
          unmqrR t (B.d.mview m) (B.d.nview k) (min (A.d.nview k) (A.d.mview k)) T.d.mb
            (A.at' k k) (T.at' k k) (B.at' m k)) ++
        (span (k + 1) B.d.nt).flatMap fun n => (List.range B.d.mt).map fun m =>
          stmqrR false t (B.d.mview m) B.d.nb (B.d.nview n) (A.d.nview k) T.d.mb
            (B.at' m k) (B.at' m n) (A.at' n k) (T.at' n k)

/-- `plasma_pzungqr` (compute/pzungqr.c:28-74). -/
noncomputable def pzungqr (A T Q : TMat M) : List (TTask (M × Nat × Nat) α) :=
  (List.range (min A.d.mt A.d.nt)).reverse.flatMap fun k =>
    ((span (k + 1) Q.d.mt).reverse.flatMap fun m => (span k Q.d.nt).map fun n =>
      stmqrL false false Q.d.mb (Q.d.nview n) (Q.d.mview m) (A.d.nview k) T.d.mb
        (Q.at' k n) (Q.at' m n) (A.at' m k) (T.at' m k)) ++
    (span k Q.d.nt).map fun n =>
      unmqrL false (Q.d.mview k) (Q.d.nview n) (min (A.d.nview k) (A.d.mview k)) T.d.mb
        (A.at' k k) (T.at' k k) (Q.at' k n)

end

end Verif.Qr

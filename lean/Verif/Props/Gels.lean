/-
Properties of the least squares / minimum norm solver: C37.
-/
import Verif.Gels
import Verif.Props.Lq
import Verif.Props.Trsm
import Verif.LKern

namespace Verif.Props

open Verif.Layout Verif.Tile Verif.Tree Verif.Qr Verif.Ls Verif.Fact Finset Matrix

universe v

set_option linter.unusedSectionVars false

variable {𝕜 : Type} [RCLike 𝕜] [DecidableEq 𝕜]

/-! ### Programs -/

/-- `plasma_pzgeqrf` or `plasma_pzgeqrf_tree` (compute/zgels.c:372-377). -/
noncomputable def facQR {M : Type} (K : QrKern 𝕜) (hm : HMode) (A T : TMat M) : List (TTask (M × Nat × Nat) 𝕜) :=
  match hm with
  | none => pzgeqrf K A T
  | some conc => pzgeqrfTree K (treeList A.d.mt A.d.nt conc) A T

/-- `plasma_pzunmqr` or `plasma_pzunmqr_tree` from the left (compute/zgels.c:382-391, 417-426). -/
noncomputable def appQR {M : Type} (hm : HMode) (t : Bool) (A T C : TMat M) : List (TTask (M × Nat × Nat) 𝕜) :=
  match hm with
  | none => pzunmqr true t A T C
  | some conc => pzunmqrTree true t (treeList A.d.mt A.d.nt conc) A T C

/-- `plasma_pzgelqf` or `plasma_pzgelqf_tree` (compute/zgels.c:435-440). -/
noncomputable def facLQ {M : Type} (K : QrKern 𝕜) (hm : HMode) (A T : TMat M) : List (TTask (M × Nat × Nat) 𝕜) :=
  match hm with
  | none => pzgelqf K A T
  | some conc => pzgelqfTree K (treeList A.d.nt A.d.mt conc) A T

/-- `plasma_pzunmlq` or `plasma_pzunmlq_tree` from the left (compute/zgels.c:458-467, 472-481). -/
noncomputable def appLQ {M : Type} (hm : HMode) (t : Bool) (A T C : TMat M) : List (TTask (M × Nat × Nat) 𝕜) :=
  match hm with
  | none => pzunmlq true t A T C
  | some conc => pzunmlqTree true t (treeList A.d.nt A.d.mt conc) A T C

/-- `plasma_omp_zgels` (compute/zgels.c:359-490) for valid descriptors; `t` is `trans == Plasma_ConjTrans`. -/
noncomputable def ompZgels {M : Type} (K : QrKern 𝕜) (dv : 𝕜 → 𝕜 → 𝕜) (hm : HMode) (t : Bool) (A T B : TMat M) :
    List (TTask (M × Nat × Nat) 𝕜) :=
  if A.d.m = 0 ∨ A.d.n = 0 ∨ B.d.n = 0 then pzlaset none 0 0 B
  else if A.d.m ≥ A.d.n then
    facQR K hm A T ++
    if t = false then
      appQR hm true A T B ++
      pztrsm dv .left .upper .noTrans .nonUnit 1 (A.sub 0 0 A.d.n A.d.n) (B.sub 0 0 A.d.n B.d.n)
    else
      pzlaset none 0 0 (B.sub A.d.n 0 (A.d.m - A.d.n) B.d.n) ++
      (pztrsm dv .left .upper .conjTrans .nonUnit 1 (A.sub 0 0 A.d.n A.d.n) (B.sub 0 0 A.d.n B.d.n) ++
      appQR hm false A T B)
  else
    facLQ K hm A T ++
    if t = false then
      pzlaset none 0 0 (B.sub A.d.m 0 (A.d.n - A.d.m) B.d.n) ++
      (pztrsm dv .left .lower .noTrans .nonUnit 1 (A.sub 0 0 A.d.m A.d.m) (B.sub 0 0 A.d.m B.d.n) ++
      appLQ hm true A T B)
    else
      appLQ hm false A T B ++
      pztrsm dv .left .lower .conjTrans .nonUnit 1 (A.sub 0 0 A.d.m A.d.m) (B.sub 0 0 A.d.m B.d.n)

/-- Tasks created by `plasma_zgels` (compute/zgels.c:116-250) for valid arguments without quick return: `A` is `m` by `n`
(array 0), `B` is `max(m, n)` by `nrhs` (array 2), `T` is array 1. -/
noncomputable def zgels (K : QrKern 𝕜) (dv : 𝕜 → 𝕜 → 𝕜) (hm : HMode) (ib nb : Nat) (t : Bool) (m n nrhs : Nat) :
    List (TTask (Buf × Nat × Nat) 𝕜) :=
  let dims := qrDims (m, n) (max m n, nrhs)
  driverV nb dims dims [0, 2] (ompZgels K dv hm t (tVw nb dims dims 0) (qrT hm ib nb m n) (tVw nb dims dims 2)) [0, 2]

/-- The loop of the quick return (compute/zgels.c:158-160). -/
def zeroB (m n nrhs ldb : Nat) (mem : Buf × Nat → 𝕜) : Buf × Nat → 𝕜 :=
  (List.range (max m n)).foldl (fun mem i => (List.range nrhs).foldl (fun mem j =>
    fun x => if x = (.usr 2, j * ldb + i) then 0 else mem x) mem) mem

/-- The kernels of the factorization that is used: `plasma_core_ztsqrt` and `plasma_core_zttqrt` for `m ≥ n`, otherwise
`plasma_core_ztslqt` and `plasma_core_zttlqt` (compute/zgels.c:372-377, 421-426). -/
noncomputable def gKern (m n : Nat) : QrKern 𝕜 := if n ≤ m then lkern else llkern

theorem gKern_spec {m n : Nat} : QrSpec (gKern m n : QrKern 𝕜) := by
  unfold gKern
  split_ifs
  · exact lkern_spec
  · exact llkern_spec

/-- What `plasma_zgels` does to the memory for valid arguments (compute/zgels.c:157-250). -/
def Zgels (dv : 𝕜 → 𝕜 → 𝕜) (hm : HMode) (ib nb : Nat) (t : Bool) (m n nrhs lda ldb : Nat) (mem mem' : Buf × Nat → 𝕜) : Prop :=
  if min m (min n nrhs) = 0 then mem' = zeroB m n nrhs ldb mem
  else Exec (qrEnv hm ib nb m n (m, n) lda (max m n, nrhs) ldb) (zgels (gKern m n) dv hm ib nb t m n nrhs) mem mem'

/-- Column `c` of the right hand sides or of the solution. -/
def uCol (mem : Buf × Nat → 𝕜) (ldb m c : Nat) : Fin m → 𝕜 := fun i => mem (.usr 2, i + c * ldb)

/-! ### Proofs -/

section
variable {K : QrKern 𝕜} {dv : 𝕜 → 𝕜 → 𝕜} {hm : HMode} {ib nb m n nrhs lda ldb : Nat}

theorem zeroB_col {ldb : Nat} (i nrhs : Nat) (mem : Buf × Nat → 𝕜) (x : Buf × Nat) :
    (List.range nrhs).foldl (fun mem j => fun x => if x = (Buf.usr 2, j * ldb + i) then (0 : 𝕜) else mem x) mem x =
      if ∃ j, j < nrhs ∧ x = (Buf.usr 2, j * ldb + i) then 0 else mem x := by
  classical
  induction nrhs with
  | zero => simp
  | succ k ih =>
    rw [List.range_succ, List.foldl_append]
    show (if x = (Buf.usr 2, k * ldb + i) then (0 : 𝕜) else _) = _
    rw [ih]
    by_cases h : x = (Buf.usr 2, k * ldb + i)
    · rw [if_pos h, if_pos ⟨k, by omega, h⟩]
    · rw [if_neg h]
      refine if_congr ⟨fun ⟨j, hj, e⟩ => ⟨j, by omega, e⟩, fun ⟨j, hj, e⟩ => ⟨j, ?_, e⟩⟩ rfl rfl
      by_contra hh
      rw [show j = k by omega] at e
      exact h e

theorem zeroB_eq (mem : Buf × Nat → 𝕜) (x : Buf × Nat) [Decidable (∃ i j, i < max m n ∧ j < nrhs ∧ x = (Buf.usr 2, i + j * ldb))] :
    zeroB m n nrhs ldb mem x = if ∃ i j, i < max m n ∧ j < nrhs ∧ x = (Buf.usr 2, i + j * ldb) then 0 else mem x := by
  classical
  unfold zeroB
  have : ∀ N, (List.range N).foldl (fun mem i => (List.range nrhs).foldl (fun mem j =>
      fun x => if x = (Buf.usr 2, j * ldb + i) then (0 : 𝕜) else mem x) mem) mem x =
      if ∃ i j, i < N ∧ j < nrhs ∧ x = (Buf.usr 2, i + j * ldb) then 0 else mem x := by
    intro N
    induction N with
    | zero => simp
    | succ k ih =>
      rw [List.range_succ, List.foldl_append]
      rw [List.foldl_cons, List.foldl_nil, zeroB_col, ih]
      by_cases h : ∃ j, j < nrhs ∧ x = (Buf.usr 2, j * ldb + k)
      · obtain ⟨j, hj, e⟩ := h
        rw [if_pos ⟨j, hj, e⟩, if_pos ⟨k, j, by omega, hj, by rw [e, Nat.add_comm]⟩]
      · rw [if_neg h]
        refine if_congr ⟨fun ⟨i, j, hi, hj, e⟩ => ⟨i, j, by omega, hj, e⟩, fun ⟨i, j, hi, hj, e⟩ => ⟨i, j, ?_, hj, e⟩⟩ rfl rfl
        by_contra hh
        rw [show i = k by omega] at e
        exact h ⟨j, hj, by rw [e, Nat.add_comm]⟩
  rw [this (max m n)]
  congr 1

theorem facQR_eq {A T : TMat Buf} {b : Nat} (hA : A.Al b) :
    facQR K hm A T = (hOps hm A.d.mt A.d.nt).flatMap (facT K T.d.mb (hOff hm T) A T) := by
  cases hm with
  | none => exact pzgeqrf_eq K hA
  | some c => rfl

theorem appQR_eq {A T C : TMat Buf} {b : Nat} {t : Bool} (hA : A.Al b) (hC : C.Al b) (hCm : C.d.m = A.d.m)
    (h0 : ¬ (C.d.m = 0 ∨ C.d.n = 0 ∨ A.d.m = 0 ∨ A.d.n = 0)) :
    appQR (𝕜 := 𝕜) hm t A T C = (if t then hOps hm A.d.mt A.d.nt else (hOps hm A.d.mt A.d.nt).reverse).flatMap
      (updL t T.d.mb (hOff hm T) A T C (List.range C.d.nt)) := by
  rw [← ompZunmqr_left hA hC hCm h0]
  unfold ompZunmqr
  rw [if_neg h0]
  rfl

theorem facLQ_eq {A T : TMat Buf} {b : Nat} (hA : A.Al b) :
    facLQ K hm A T = (hOps hm A.d.nt A.d.mt).flatMap (lfacT K T.d.mb (hOff hm T) A T) := by
  cases hm with
  | none => exact pzgelqf_eq K hA
  | some c => rfl

theorem appLQ_eq {A T C : TMat Buf} {b : Nat} {t : Bool} (hA : A.Al b) (hC : C.Al b) (hCm : C.d.m = A.d.n)
    (h0 : ¬ (C.d.m = 0 ∨ C.d.n = 0 ∨ A.d.m = 0 ∨ A.d.n = 0)) :
    appLQ (𝕜 := 𝕜) hm t A T C = (if t then (hOps hm A.d.nt A.d.mt).reverse else hOps hm A.d.nt A.d.mt).flatMap
      (lupdL false t T.d.mb (hOff hm T) A T C (List.range C.d.nt)) := by
  rw [← ompZunmlq_left hA hC hCm h0]
  unfold ompZunmlq
  rw [if_neg h0]
  rfl

/-- The program as one of the four solves. -/
theorem ompZgels_eq {A T C : TMat Buf} {b : Nat} {t : Bool} (hA : A.Al b) (hC : C.Al b) (hCm : C.d.m = max A.d.m A.d.n)
    (h0 : ¬ (A.d.m = 0 ∨ A.d.n = 0 ∨ C.d.n = 0)) :
    ompZgels K dv hm t A T C =
      if A.d.n ≤ A.d.m then
        if t then qrUnder K dv T.d.mb (hOff hm T) (hOps hm A.d.mt A.d.nt) A T C
        else qrOver K dv T.d.mb (hOff hm T) (hOps hm A.d.mt A.d.nt) A T C
      else
        if t then lqOver K dv T.d.mb (hOff hm T) (hOps hm A.d.nt A.d.mt) A T C
        else lqUnder K dv T.d.mb (hOff hm T) (hOps hm A.d.nt A.d.mt) A T C := by
  unfold ompZgels
  rw [if_neg h0]
  have h0' : ¬ (C.d.m = 0 ∨ C.d.n = 0 ∨ A.d.m = 0 ∨ A.d.n = 0) := by omega
  by_cases hmn : A.d.n ≤ A.d.m
  · rw [if_pos hmn, if_pos hmn, facQR_eq hA]
    cases t with
    | true =>
      rw [if_neg (by decide), if_pos rfl, appQR_eq hA hC (by omega) h0']
      rfl
    | false =>
      rw [if_pos rfl, if_neg (by decide), appQR_eq hA hC (by omega) h0']
      rfl
  · rw [if_neg hmn, if_neg hmn, facLQ_eq hA]
    cases t with
    | true =>
      rw [if_neg (by decide), if_pos rfl, appLQ_eq hA hC (by omega) h0']
      rfl
    | false =>
      rw [if_pos rfl, if_neg (by decide), appLQ_eq hA hC (by omega) h0']
      rfl

/-- Footprints. -/
theorem gels_gw (hK : QrSpec K) (hok : HMode.ok hm) (hnb : 0 < nb) (h0 : min m (min n nrhs) ≠ 0) {t : Bool} :
    Good (evalid (qrEnv hm ib nb m n (m, n) lda (max m n, nrhs) ldb))
      (ompZgels K dv hm t (tVw nb (qrDims (m, n) (max m n, nrhs)) (qrDims (m, n) (max m n, nrhs)) 0) (qrT hm ib nb m n)
        (tVw nb (qrDims (m, n) (max m n, nrhs)) (qrDims (m, n) (max m n, nrhs)) 2)) ∧
    Writes (fun x => x.1 = .til 0 ∨ x.1 = .til 2 ∨ x.1 = .usr 1)
      (ompZgels K dv hm t (tVw nb (qrDims (m, n) (max m n, nrhs)) (qrDims (m, n) (max m n, nrhs)) 0) (qrT hm ib nb m n)
        (tVw nb (qrDims (m, n) (max m n, nrhs)) (qrDims (m, n) (max m n, nrhs)) 2)) := by
  set dims := qrDims (m, n) (max m n, nrhs) with hdims
  have d0 : dims 0 = (m, n) := rfl
  have hmt := ceilDiv_pos (m := m) hnb (by omega)
  have hnt := ceilDiv_pos (m := n) hnb (by omega)
  have hAl : (tVw nb dims dims 0).Al nb := al_tVw hnb 0
  have hBl : (tVw nb dims dims 2).Al nb := al_tVw hnb 2
  have vA : TilesV (evalid (qrEnv hm ib nb m n (m, n) lda (max m n, nrhs) ldb)) nb (tVw nb dims dims 0) :=
    tiles_vw hnb ⟨le_rfl, le_rfl⟩
  have vB : TilesV (evalid (qrEnv hm ib nb m n (m, n) lda (max m n, nrhs) ldb)) nb (tVw nb dims dims 2) :=
    tiles_vw hnb ⟨le_rfl, le_rfl⟩
  have fA : Fits (qrEnv hm ib nb m n (m, n) lda (max m n, nrhs) ldb) nb (tVw nb dims dims 0) := fits_tVw hnb ⟨le_rfl, le_rfl⟩
  have fB : Fits (qrEnv hm ib nb m n (m, n) lda (max m n, nrhs) ldb) nb (tVw nb dims dims 2) := fits_tVw hnb ⟨le_rfl, le_rfl⟩
  have hTA : (qrT hm ib nb m n).id ≠ (tVw nb dims dims 0).id := fun e => by cases e
  have hgt : ∀ (u : Uplo) (t : Trans) (k : Nat), k ≤ m → k ≤ n →
      Good (evalid (qrEnv hm ib nb m n (m, n) lda (max m n, nrhs) ldb)) (pztrsm dv .left u t .nonUnit 1
        ((tVw nb dims dims 0).sub 0 0 k k) ((tVw nb dims dims 2).sub 0 0 k nrhs)) := fun u t k h1 h2 =>
    pztrsm_good ((TMat.sub_fits fA h1 h2).mono fun _ _ _ => trivial)
      (TMat.sub_fits fB (show k ≤ max m n by omega) le_rfl) rfl rfl le_rfl le_rfl
  have hwt : ∀ (u : Uplo) (t : Trans) (k : Nat), Writes (fun x => x.1 = .til 0 ∨ x.1 = .til 2 ∨ x.1 = .usr 1)
      (pztrsm dv .left u t .nonUnit 1 ((tVw nb dims dims 0).sub 0 0 k k) ((tVw nb dims dims 2).sub 0 0 k nrhs)) :=
    fun u t k => (pztrsm_writes (TMat.sub_al hBl k nrhs) rfl rfl).mono fun x h => Or.inr (Or.inl h)
  have hgl : ∀ k N, max m n = N → Good (evalid (qrEnv hm ib nb m n (m, n) lda (max m n, nrhs) ldb))
      (pzlaset (α := 𝕜) none 0 0 ((tVw nb dims dims 2).sub k 0 (N - k) nrhs)) := fun k N hN => by
    rw [← hN]
    exact laset_sub_good fB rfl rfl
  have hwl : ∀ k N, max m n = N → Writes (fun x => x.1 = .til 0 ∨ x.1 = .til 2 ∨ x.1 = .usr 1)
      (pzlaset (α := 𝕜) none 0 0 ((tVw nb dims dims 2).sub k 0 (N - k) nrhs)) := fun k N hN => by
    rw [← hN]
    exact (laset_sub_ws hBl rfl rfl).mono fun x h => Or.inr (Or.inl h)
  rw [ompZgels_eq hAl hBl rfl (show ¬ (m = 0 ∨ n = 0 ∨ nrhs = 0) by omega), show (qrT hm ib nb m n).d.mb = ib from rfl]
  rw [show (tVw nb dims dims 0).d.n = n from rfl, show (tVw nb dims dims 0).d.m = m from rfl, al_mt hnb, al_nt hnb, d0]
  by_cases hmn : n ≤ m
  · rw [if_pos hmn]
    have ho : OpsOK (tVw nb dims dims 0).d.mt (tVw nb dims dims 0).d.nt (hOps hm (ceilDiv m nb) (ceilDiv n nb)) := by
      rw [al_mt hnb, al_nt hnb]
      exact hOps_ok hok hmt hnt
    have hTv := qrT_valid (hm := hm) (ib := ib) (m := m) (n := n) (a := (m, n)) (c := (max m n, nrhs)) (lda := lda) (ldc := ldb)
      hnb (ops_inB (hOps_ok hok hmt hnt))
    have hgu : ∀ (t : Bool) (L : List Op), (∀ o ∈ L, o ∈ hOps hm (ceilDiv m nb) (ceilDiv n nb)) →
        Good (evalid (qrEnv hm ib nb m n (m, n) lda (max m n, nrhs) ldb)) (L.flatMap (updL (α := 𝕜) t ib
          (hOff hm (qrT hm ib nb m n)) (tVw nb dims dims 0) (qrT hm ib nb m n) (tVw nb dims dims 2)
          (List.range (tVw nb dims dims 2).d.nt))) := fun t L hL =>
      Good.flatMap fun o h => updL_good hAl hBl (show max m n = m by omega) vA vB (fun n hn => List.mem_range.mp hn)
        (ops_inB ho o (hL o h)) (hTv o (hL o h))
    have hgf := fac_good (off := hOff hm (qrT hm ib nb m n)) (T := qrT hm ib nb m n) hK hAl hTA vA (ops_inB ho) hTv
    have hwf : Writes (fun x => x.1 = .til 0 ∨ x.1 = .til 2 ∨ x.1 = .usr 1) ((hOps hm (ceilDiv m nb) (ceilDiv n nb)).flatMap
        (facT K ib (hOff hm (qrT hm ib nb m n)) (tVw nb dims dims 0) (qrT hm ib nb m n))) :=
      fac_writes.mono fun x h => h.elim Or.inl fun h => Or.inr (Or.inr h)
    cases t with
    | true =>
      rw [if_pos rfl]
      have hl := hgl n m (by omega)
      have wl := hwl n m (by omega)
      exact ⟨hgf.append (hl.append ((hgt _ _ n hmn le_rfl).append (hgu _ _ fun o h => List.mem_reverse.mp h))),
        hwf.append (wl.append ((hwt _ _ n).append (updL_ws.mono fun x h => Or.inr (Or.inl h))))⟩
    | false =>
      rw [if_neg (by decide)]
      exact ⟨hgf.append ((hgu _ _ fun o h => h).append (hgt _ _ n hmn le_rfl)),
        hwf.append ((updL_ws.mono fun x h => Or.inr (Or.inl h)).append (hwt _ _ n))⟩
  · rw [if_neg hmn]
    have ho : OpsOK (tVw nb dims dims 0).d.nt (tVw nb dims dims 0).d.mt (hOps hm (ceilDiv n nb) (ceilDiv m nb)) := by
      rw [al_mt hnb, al_nt hnb]
      exact hOps_ok hok hnt hmt
    have hTv := lqT_valid (hm := hm) (ib := ib) (m := m) (n := n) (a := (m, n)) (c := (max m n, nrhs)) (lda := lda) (ldc := ldb)
      hnb (ops_inB (hOps_ok hok hnt hmt))
    have hgu : ∀ (t : Bool) (L : List Op), (∀ o ∈ L, o ∈ hOps hm (ceilDiv n nb) (ceilDiv m nb)) →
        Good (evalid (qrEnv hm ib nb m n (m, n) lda (max m n, nrhs) ldb)) (L.flatMap (lupdL (α := 𝕜) false t ib
          (hOff hm (qrT hm ib nb m n)) (tVw nb dims dims 0) (qrT hm ib nb m n) (tVw nb dims dims 2)
          (List.range (tVw nb dims dims 2).d.nt))) := fun t L hL =>
      Good.flatMap fun o h => lupdL_good hAl hBl (show max m n = n by omega) vA vB (fun n hn => List.mem_range.mp hn)
        (ops_inB ho o (hL o h)) (hTv o (hL o h))
    have hgf := lfac_good (off := hOff hm (qrT hm ib nb m n)) (T := qrT hm ib nb m n) hK hAl hTA vA (ops_inB ho) hTv
    have hwf : Writes (fun x => x.1 = .til 0 ∨ x.1 = .til 2 ∨ x.1 = .usr 1) ((hOps hm (ceilDiv n nb) (ceilDiv m nb)).flatMap
        (lfacT K ib (hOff hm (qrT hm ib nb m n)) (tVw nb dims dims 0) (qrT hm ib nb m n))) :=
      lfac_writes.mono fun x h => h.elim Or.inl fun h => Or.inr (Or.inr h)
    cases t with
    | true =>
      rw [if_pos rfl]
      exact ⟨hgf.append ((hgu _ _ fun o h => h).append (hgt _ _ m le_rfl (by omega))),
        hwf.append ((lupdL_ws.mono fun x h => Or.inr (Or.inl h)).append (hwt _ _ m))⟩
    | false =>
      rw [if_neg (by decide)]
      have hl := hgl m n (by omega)
      have wl := hwl m n (by omega)
      exact ⟨hgf.append (hl.append ((hgt _ _ m le_rfl (by omega)).append (hgu _ _ fun o h => List.mem_reverse.mp h))),
        hwf.append (wl.append ((hwt _ _ m).append (lupdL_ws.mono fun x h => Or.inr (Or.inl h))))⟩

/-- The final memory in terms of the tile programs. -/
theorem gels_run (hK : QrSpec K) (hok : HMode.ok hm) (hnb : 0 < nb) (hib : 0 < ib) (hlda : m ≤ lda) (hldb : max m n ≤ ldb)
    (h0 : min m (min n nrhs) ≠ 0) {t : Bool} {mem mem' : Buf × Nat → 𝕜}
    (h : Exec (qrEnv hm ib nb m n (m, n) lda (max m n, nrhs) ldb) (zgels K dv hm ib nb t m n nrhs) mem mem') :
    ∃ s : Store (Buf × Nat × Nat) 𝕜,
      ofE m n ((tVw nb (qrDims (m, n) (max m n, nrhs)) (qrDims (m, n) (max m n, nrhs)) 0).el s) = uArr mem 0 lda m n ∧
      (∀ r c, r < max m n → c < nrhs → (tVw nb (qrDims (m, n) (max m n, nrhs)) (qrDims (m, n) (max m n, nrhs)) 2).el s r c =
        mem (.usr 2, r + c * ldb)) ∧
      (∀ r c, r < m → c < n → mem' (.usr 0, r + c * lda) =
        (tVw nb (qrDims (m, n) (max m n, nrhs)) (qrDims (m, n) (max m n, nrhs)) 0).el (texec (ompZgels K dv hm t
          (tVw nb (qrDims (m, n) (max m n, nrhs)) (qrDims (m, n) (max m n, nrhs)) 0) (qrT hm ib nb m n)
          (tVw nb (qrDims (m, n) (max m n, nrhs)) (qrDims (m, n) (max m n, nrhs)) 2)) s) r c) ∧
      (∀ r c, r < max m n → c < nrhs → mem' (.usr 2, r + c * ldb) =
        (tVw nb (qrDims (m, n) (max m n, nrhs)) (qrDims (m, n) (max m n, nrhs)) 2).el (texec (ompZgels K dv hm t
          (tVw nb (qrDims (m, n) (max m n, nrhs)) (qrDims (m, n) (max m n, nrhs)) 0) (qrT hm ib nb m n)
          (tVw nb (qrDims (m, n) (max m n, nrhs)) (qrDims (m, n) (max m n, nrhs)) 2)) s) r c) ∧
      (∀ k x, k ≠ 1 → (k = 0 → ∀ i j, i < m → j < n → x ≠ i + j * lda) →
        (k = 2 → ∀ i j, i < max m n → j < nrhs → x ≠ i + j * ldb) → mem' (.usr k, x) = mem (.usr k, x)) ∧
      ((∀ x, mem (.usr 1, x) = 0) → ∀ t i j, t.1 = .usr 1 → s t i j = 0) := by
  obtain ⟨hg, hw⟩ := gels_gw (dv := dv) (lda := lda) (ldb := ldb) (ib := ib) hK hok hnb h0 (t := t)
  set dims := qrDims (m, n) (max m n, nrhs) with hdims
  have hld : ∀ k, k ≠ 1 → (dims k).1 ≤ qrLd lda ldb k := qrLd_ok hlda hldb
  have hio : ∀ k, k ∈ [0, 2] → k ≠ 1 ∧ (dims k).1 ≤ (dims k).1 ∧ (dims k).2 ≤ (dims k).2 := fun k hk => by
    simp only [List.mem_cons, List.not_mem_nil, or_false] at hk
    exact ⟨by omega, le_rfl, le_rfl⟩
  obtain ⟨s, e1, e2, e3, e4, e5, e6⟩ := drvT_correct hnb hib hld (by decide) (by decide) hio hio hg
    (hw.mono fun x hx => hx.elim (fun h => Or.inl ⟨0, h⟩) fun h => h.elim (fun h => Or.inl ⟨2, h⟩) Or.inr) h
  refine ⟨s, ?_, fun r c hr hc => e1 2 (by simp) r c hr hc, fun r c hr hc => e3 0 (by simp) r c hr hc,
    fun r c hr hc => e3 2 (by simp) r c hr hc, fun k x hk h1 h2 => ?_, fun hc t i j ht => ?_⟩
  · exact Matrix.ext fun i j => e1 0 (by simp) i j i.2 j.2
  · refine e6 k x hk ?_
    intro i j hi hj
    by_cases hk0 : k = 0
    · subst hk0
      exact h1 rfl i j hi hj
    by_cases hk2 : k = 2
    · subst hk2
      exact h2 rfl i j hi hj
    · exact absurd hi (by rw [hdims]; simp [qrDims, hk0, hk2])
  · have e : ∀ x : Buf × Nat, x.1 = .usr 1 → mem x = 0 := fun x hx => by
      obtain ⟨y, z⟩ := x
      cases hx
      exact hc _
    rw [e2 t i j ht]
    exact e _ ht

/-- Everything, apart from the quick return. -/
theorem gels_holds (hdv : IsDiv dv) (hK : QrSpec K) (hok : HMode.ok hm) (hnb : 0 < nb) (hib : 0 < ib) (hlda : m ≤ lda)
    (hldb : max m n ≤ ldb) (h0 : min m (min n nrhs) ≠ 0) {t : Bool} {mem mem' : Buf × Nat → 𝕜} (hc : TClean hm mem)
    (h : Exec (qrEnv hm ib nb m n (m, n) lda (max m n, nrhs) ldb) (zgels K dv hm ib nb t m n nrhs) mem mem') :
    (n ≤ m → FullColRank (uArr mem 0 lda m n) →
      (∃ Q ∈ unitaryGroup (Fin m) 𝕜, Q * uArrU mem' 0 lda m n = uArr mem 0 lda m n) ∧
      ∀ c, c < nrhs → (t = false → IsLeastSquares (uArr mem 0 lda m n) (uCol mem ldb m c) (uCol mem' ldb n c) ∧
          ∑ i, ‖uCol mem ldb m c i - (uArr mem 0 lda m n *ᵥ uCol mem' ldb n c) i‖ ^ 2 =
            ∑ i : Fin m, if n ≤ i then ‖uCol mem' ldb m c i‖ ^ 2 else 0) ∧
        (t = true → IsMinNorm (uArr mem 0 lda m n)ᴴ (uCol mem ldb n c) (uCol mem' ldb m c))) ∧
    (m < n → FullColRank (uArr mem 0 lda m n)ᴴ →
      (∃ Q ∈ unitaryGroup (Fin n) 𝕜, uArrL mem' 0 lda m n * Q = uArr mem 0 lda m n) ∧
      ∀ c, c < nrhs → (t = true → IsLeastSquares (uArr mem 0 lda m n)ᴴ (uCol mem ldb n c) (uCol mem' ldb m c) ∧
          ∑ i, ‖uCol mem ldb n c i - ((uArr mem 0 lda m n)ᴴ *ᵥ uCol mem' ldb m c) i‖ ^ 2 =
            ∑ i : Fin n, if m ≤ i then ‖uCol mem' ldb n c i‖ ^ 2 else 0) ∧
        (t = false → IsMinNorm (uArr mem 0 lda m n) (uCol mem ldb m c) (uCol mem' ldb n c))) := by
  obtain ⟨s, eA, eB, eA', eB', -, eT⟩ := gels_run hK hok hnb hib hlda hldb h0 h
  set dims := qrDims (m, n) (max m n, nrhs) with hdims
  have d0 : dims 0 = (m, n) := rfl
  have hmt := ceilDiv_pos (m := m) hnb (by omega)
  have hnt := ceilDiv_pos (m := n) hnb (by omega)
  have hAl : (tVw nb dims dims 0).Al nb := al_tVw hnb 0
  have hBl : (tVw nb dims dims 2).Al nb := al_tVw hnb 2
  have hcol : ∀ k c, k ≤ max m n → c < nrhs → (fun i : Fin k => (tVw nb dims dims 2).el s i c) = uCol mem ldb k c :=
    fun k c hk hc => funext fun i => eB i c (by omega) hc
  rw [ompZgels_eq hAl hBl rfl (show ¬ (m = 0 ∨ n = 0 ∨ nrhs = 0) by omega), show (qrT hm ib nb m n).d.mb = ib from rfl,
    show (tVw nb dims dims 0).d.n = n from rfl, show (tVw nb dims dims 0).d.m = m from rfl, al_mt hnb, al_nt hnb, d0] at eA' eB'
  have hTA : (qrT hm ib nb m n).id ≠ (tVw nb dims dims 0).id := fun e => by cases e
  have hTB : (qrT hm ib nb m n).id ≠ (tVw nb dims dims 2).id := fun e => by cases e
  have hAB : (tVw nb dims dims 0).id ≠ (tVw nb dims dims 2).id := fun e => by cases e
  have hTz : ∀ mt nt, ∀ o ∈ hOps hm mt nt, isTT o = true → ∀ t : Buf × Nat × Nat, t.1 = .usr 1 → ∀ i j, s t i j = 0 := by
    intro mt nt o ho htt t ht i j
    rcases hc with hc | hc
    · subst hc
      rw [flatOps_tt ho] at htt
      cases htt
    · exact eT hc t i j ht
  refine ⟨fun hmn hr => ?_, fun hmn hr => ?_⟩
  · rw [if_pos hmn] at eA' eB'
    have hBm : (tVw nb dims dims 2).d.m = m := show max m n = m by omega
    have ho : OpsOK (tVw nb dims dims 0).d.mt (tVw nb dims dims 0).d.nt (hOps hm (ceilDiv m nb) (ceilDiv n nb)) := by
      rw [al_mt hnb, al_nt hnb]
      exact hOps_ok hok hmt hnt
    have hnd := qrT_nodup (m := m) (n := n) (ib := ib) hok hnb hmt hnt rfl
    cases t with
    | false =>
      rw [if_neg (by decide)] at eA' eB'
      obtain ⟨g1, g2⟩ := qrOver_el (m := m) (n := n) hK hdv hib hAl rfl rfl hBl hTA hTB hAB s hmn hBm ho hnd
        (fun o h htt i j _ _ => hTz _ _ o h htt _ rfl i j) (by rw [eA]; exact hr)
      set s' := texec (qrOver K dv ib (hOff hm (qrT hm ib nb m n)) (hOps hm (ceilDiv m nb) (ceilDiv n nb))
        (tVw nb dims dims 0) (qrT hm ib nb m n) (tVw nb dims dims 2)) s
      have hcol' : ∀ k c, k ≤ max m n → c < nrhs → uCol mem' ldb k c = (fun i : Fin k => (tVw nb dims dims 2).el s' i c) :=
        fun k c hk hc => funext fun i => eB' i c (by omega) hc
      have hU : uArrU mem' 0 lda m n = ofE m n (triu ((tVw nb dims dims 0).el s')) := Matrix.ext fun i j => by
        show (if (i : Nat) ≤ j then mem' (.usr 0, i + j * lda) else 0) = triu _ i j
        unfold triu
        rw [eA' i j i.2 j.2]
      rw [hU, ← eA]
      refine ⟨g1, fun c hc => ⟨fun _ => ?_, fun h => by cases h⟩⟩
      rw [← hcol m c (by omega) hc, hcol' n c (by omega) hc, hcol' m c (by omega) hc]
      exact g2 c hc
    | true =>
      rw [if_pos rfl] at eA' eB'
      obtain ⟨g1, g2⟩ := qrUnder_el (m := m) (n := n) hK hdv hib hAl rfl rfl hBl hTA hTB hAB s hmn hBm rfl rfl ho hnd
        (fun o h htt i j _ _ => hTz _ _ o h htt _ rfl i j) (by rw [eA]; exact hr)
      set s' := texec (qrUnder K dv ib (hOff hm (qrT hm ib nb m n)) (hOps hm (ceilDiv m nb) (ceilDiv n nb))
        (tVw nb dims dims 0) (qrT hm ib nb m n) (tVw nb dims dims 2)) s
      have hcol' : ∀ k c, k ≤ max m n → c < nrhs → uCol mem' ldb k c = (fun i : Fin k => (tVw nb dims dims 2).el s' i c) :=
        fun k c hk hc => funext fun i => eB' i c (by omega) hc
      have hU : uArrU mem' 0 lda m n = ofE m n (triu ((tVw nb dims dims 0).el s')) := Matrix.ext fun i j => by
        show (if (i : Nat) ≤ j then mem' (.usr 0, i + j * lda) else 0) = triu _ i j
        unfold triu
        rw [eA' i j i.2 j.2]
      rw [hU, ← eA]
      refine ⟨g1, fun c hc => ⟨(fun h => by cases h), fun _ => ?_⟩⟩
      rw [← hcol n c (by omega) hc, hcol' m c (by omega) hc]
      exact g2 c hc
  · rw [if_neg (by omega)] at eA' eB'
    have hBm : (tVw nb dims dims 2).d.m = n := show max m n = n by omega
    have ho : OpsOK (tVw nb dims dims 0).d.nt (tVw nb dims dims 0).d.mt (hOps hm (ceilDiv n nb) (ceilDiv m nb)) := by
      rw [al_mt hnb, al_nt hnb]
      exact hOps_ok hok hnt hmt
    have hin := ops_inB (hOps_ok hok hnt hmt)
    have hnd := qrT_nodup (m := n) (n := m) (ib := ib) hok hnb hnt hmt rfl
    cases t with
    | true =>
      rw [if_pos rfl] at eA' eB'
      obtain ⟨g1, g2⟩ := lqOver_el (m := m) (n := n) (F := lFlip hm ib nb m n) (T := qrT hm ib nb m n) (T' := qrT hm ib nb n m)
        (off := hOff hm (qrT hm ib nb m n)) (off' := hOff hm (qrT hm ib nb n m)) hK hdv hib hAl rfl rfl hBl (fun e => by cases e)
        (fun e => by cases e) hAB ho hnd rfl rfl (lFlip_ok hnb hin) s
        (fun o h htt i j _ _ => hTz _ _ o h htt _ (lTt_fst ..) i j) (by omega) hBm (by rw [eA]; exact hr)
      set s' := texec (lqOver K dv ib (hOff hm (qrT hm ib nb m n)) (hOps hm (ceilDiv n nb) (ceilDiv m nb))
        (tVw nb dims dims 0) (qrT hm ib nb m n) (tVw nb dims dims 2)) s
      have hcol' : ∀ k c, k ≤ max m n → c < nrhs → uCol mem' ldb k c = (fun i : Fin k => (tVw nb dims dims 2).el s' i c) :=
        fun k c hk hc => funext fun i => eB' i c (by omega) hc
      have hU : uArrL mem' 0 lda m n = ofE m n (tril ((tVw nb dims dims 0).el s')) := Matrix.ext fun i j => by
        show (if (j : Nat) ≤ i then mem' (.usr 0, i + j * lda) else 0) = tril _ i j
        unfold tril
        rw [eA' i j i.2 j.2]
      rw [hU, ← eA]
      refine ⟨g1, fun c hc => ⟨fun _ => ?_, fun h => by cases h⟩⟩
      rw [← hcol n c (by omega) hc, hcol' m c (by omega) hc, hcol' n c (by omega) hc]
      exact g2 c hc
    | false =>
      rw [if_neg (by decide)] at eA' eB'
      obtain ⟨g1, g2⟩ := lqUnder_el (m := m) (n := n) (F := lFlip hm ib nb m n) (T := qrT hm ib nb m n) (T' := qrT hm ib nb n m)
        (off := hOff hm (qrT hm ib nb m n)) (off' := hOff hm (qrT hm ib nb n m)) hK hdv hib hAl rfl rfl hBl (fun e => by cases e)
        (fun e => by cases e) hAB ho hnd rfl rfl (lFlip_ok hnb hin) s
        (fun o h htt i j _ _ => hTz _ _ o h htt _ (lTt_fst ..) i j) (by omega) hBm rfl rfl (by rw [eA]; exact hr)
      set s' := texec (lqUnder K dv ib (hOff hm (qrT hm ib nb m n)) (hOps hm (ceilDiv n nb) (ceilDiv m nb))
        (tVw nb dims dims 0) (qrT hm ib nb m n) (tVw nb dims dims 2)) s
      have hcol' : ∀ k c, k ≤ max m n → c < nrhs → uCol mem' ldb k c = (fun i : Fin k => (tVw nb dims dims 2).el s' i c) :=
        fun k c hk hc => funext fun i => eB' i c (by omega) hc
      have hU : uArrL mem' 0 lda m n = ofE m n (tril ((tVw nb dims dims 0).el s')) := Matrix.ext fun i j => by
        show (if (j : Nat) ≤ i then mem' (.usr 0, i + j * lda) else 0) = tril _ i j
        unfold tril
        rw [eA' i j i.2 j.2]
      rw [hU, ← eA]
      refine ⟨g1, fun c hc => ⟨(fun h => by cases h), fun _ => ?_⟩⟩
      rw [← hcol m c (by omega) hc, hcol' n c (by omega) hc]
      exact g2 c hc

theorem gels_exists (hK : QrSpec K) (hok : HMode.ok hm) (hnb : 0 < nb) (hib : 0 < ib) (hlda : m ≤ lda)
    (hldb : max m n ≤ ldb) (h0 : min m (min n nrhs) ≠ 0) {t : Bool} (mem : Buf × Nat → 𝕜) :
    ∃ mem', Exec (qrEnv hm ib nb m n (m, n) lda (max m n, nrhs) ldb) (zgels K dv hm ib nb t m n nrhs) mem mem' := by
  have hio : ∀ k, k ∈ [0, 2] → k ≠ 1 ∧ (qrDims (m, n) (max m n, nrhs) k).1 ≤ (qrDims (m, n) (max m n, nrhs) k).1 ∧
      (qrDims (m, n) (max m n, nrhs) k).2 ≤ (qrDims (m, n) (max m n, nrhs) k).2 := fun k hk => by
    simp only [List.mem_cons, List.not_mem_nil, or_false] at hk
    exact ⟨by omega, le_rfl, le_rfl⟩
  exact drvT_exists hnb hib (qrLd_ok hlda hldb) hio hio (gels_gw hK hok hnb h0).1 mem

/-- `B` after the quick return. -/
theorem zeroB_uCol {k c : Nat} (hk : k ≤ max m n) (hc : c < nrhs) (mem : Buf × Nat → 𝕜) :
    uCol (zeroB m n nrhs ldb mem) ldb k c = 0 := by
  classical
  funext i
  show zeroB m n nrhs ldb mem (.usr 2, i + c * ldb) = 0
  rw [zeroB_eq, if_pos ⟨i, c, by omega, hc, rfl⟩]

end

section
variable {dv : 𝕜 → 𝕜 → 𝕜} {hm : HMode} {ib nb m n nrhs lda ldb : Nat} {t : Bool} {mem mem' : Buf × Nat → 𝕜}

/-- **C37**, `trans = PlasmaNoTrans`.  For every size (including empty ones), block size, householder mode and number of
threads, and for every legal execution: if `A` has full rank, every column of `X` is a least squares solution of `A X = B`
if `m ≥ n`, and the minimum norm solution of `A X = B` if `m < n`.

Missing: tree mode with a `T` whose memory is not zero before the call, which nothing in the library sees to; see
`C61_geqrf_stale`. -/
theorem C37_noTrans_partial (hdv : IsDiv dv) (hok : HMode.ok hm) (hnb : 0 < nb) (hib : 0 < ib) (hlda : m ≤ lda)
    (hldb : max m n ≤ ldb) (hcl : TClean hm mem) (h : Zgels dv hm ib nb false m n nrhs lda ldb mem mem') {c : Nat} (hc : c < nrhs) :
    (n ≤ m → FullColRank (uArr mem 0 lda m n) →
      IsLeastSquares (uArr mem 0 lda m n) (uCol mem ldb m c) (uCol mem' ldb n c)) ∧
    (m < n → FullColRank (uArr mem 0 lda m n)ᴴ →
      IsMinNorm (uArr mem 0 lda m n) (uCol mem ldb m c) (uCol mem' ldb n c)) := by
  unfold Zgels at h
  by_cases h0 : min m (min n nrhs) = 0
  · rw [if_pos h0] at h
    refine ⟨fun hmn _ => ?_, fun hmn _ => ?_⟩
    · have hn : n = 0 := by omega
      subst hn
      intro y
      rw [show y = uCol mem' ldb 0 c from funext fun i => i.elim0]
    · have hn : m = 0 := by omega
      subst hn
      refine ⟨funext fun i => i.elim0, fun y _ => ?_⟩
      rw [h, zeroB_uCol (by omega) hc]
      refine le_trans (le_of_eq (sum_eq_zero fun i _ => ?_)) (sum_nonneg fun i _ => sq_nonneg _)
      rw [Pi.zero_apply, norm_zero]
      exact zero_pow (by decide)
  · rw [if_neg h0] at h
    obtain ⟨h1, h2⟩ := gels_holds hdv gKern_spec hok hnb hib hlda hldb h0 hcl h
    exact ⟨fun hmn hr => (((h1 hmn hr).2 c hc).1 rfl).1, fun hmn hr => ((h2 hmn hr).2 c hc).2 rfl⟩

/-- **C37**, `trans = Plasma_ConjTrans`.  If `A` has full rank, every column of `X` is the minimum norm solution of
`A^H X = B` if `m ≥ n`, and a least squares solution of `A^H X = B` if `m < n`.
Missing as in `C37_noTrans_partial`. -/
theorem C37_conjTrans_partial (hdv : IsDiv dv) (hok : HMode.ok hm) (hnb : 0 < nb) (hib : 0 < ib) (hlda : m ≤ lda)
    (hldb : max m n ≤ ldb) (hcl : TClean hm mem) (h : Zgels dv hm ib nb true m n nrhs lda ldb mem mem') {c : Nat} (hc : c < nrhs) :
    (n ≤ m → FullColRank (uArr mem 0 lda m n) →
      IsMinNorm (uArr mem 0 lda m n)ᴴ (uCol mem ldb n c) (uCol mem' ldb m c)) ∧
    (m < n → FullColRank (uArr mem 0 lda m n)ᴴ →
      IsLeastSquares (uArr mem 0 lda m n)ᴴ (uCol mem ldb n c) (uCol mem' ldb m c)) := by
  unfold Zgels at h
  by_cases h0 : min m (min n nrhs) = 0
  · rw [if_pos h0] at h
    refine ⟨fun hmn _ => ?_, fun hmn _ => ?_⟩
    · have hn : n = 0 := by omega
      subst hn
      refine ⟨funext fun i => i.elim0, fun y _ => ?_⟩
      rw [h, zeroB_uCol (by omega) hc]
      refine le_trans (le_of_eq (sum_eq_zero fun i _ => ?_)) (sum_nonneg fun i _ => sq_nonneg _)
      rw [Pi.zero_apply, norm_zero]
      exact zero_pow (by decide)
    · have hn : m = 0 := by omega
      subst hn
      intro y
      rw [show y = uCol mem' ldb 0 c from funext fun i => i.elim0]
  · rw [if_neg h0] at h
    obtain ⟨h1, h2⟩ := gels_holds hdv gKern_spec hok hnb hib hlda hldb h0 hcl h
    exact ⟨fun hmn hr => ((h1 hmn hr).2 c hc).2 rfl, fun hmn hr => (((h2 hmn hr).2 c hc).1 rfl).1⟩

/-- **C37**, part: `A` is overwritten by its triangular factor and `Q` is unitary; only `A`, `B` and `T` change.  Missing as in
`C37_noTrans_partial`. -/
theorem C37_factor_partial (hdv : IsDiv dv) (hok : HMode.ok hm) (hnb : 0 < nb) (hib : 0 < ib) (hlda : m ≤ lda)
    (hldb : max m n ≤ ldb) (hn : nrhs ≠ 0) (hcl : TClean hm mem) (h : Zgels dv hm ib nb t m n nrhs lda ldb mem mem') :
    (n ≤ m → FullColRank (uArr mem 0 lda m n) →
      ∃ Q ∈ unitaryGroup (Fin m) 𝕜, Q * uArrU mem' 0 lda m n = uArr mem 0 lda m n) ∧
    (m < n → FullColRank (uArr mem 0 lda m n)ᴴ →
      ∃ Q ∈ unitaryGroup (Fin n) 𝕜, uArrL mem' 0 lda m n * Q = uArr mem 0 lda m n) := by
  unfold Zgels at h
  by_cases h0 : min m (min n nrhs) = 0
  · refine ⟨fun hmn _ => ⟨1, one_mem _, ?_⟩, fun hmn _ => ⟨1, one_mem _, ?_⟩⟩
    · have hn : n = 0 := by omega
      subst hn
      exact Matrix.ext fun i j => j.elim0
    · have hn : m = 0 := by omega
      subst hn
      exact Matrix.ext fun i j => i.elim0
  · rw [if_neg h0] at h
    obtain ⟨h1, h2⟩ := gels_holds hdv gKern_spec hok hnb hib hlda hldb h0 hcl h
    exact ⟨fun hmn hr => (h1 hmn hr).1, fun hmn hr => (h2 hmn hr).1⟩

/-- **C37**, part: nothing outside `A`, `B` and `T` changes. -/
theorem C37_frame (hok : HMode.ok hm) (hnb : 0 < nb) (hib : 0 < ib) (hlda : m ≤ lda)
    (hldb : max m n ≤ ldb) (h : Zgels dv hm ib nb t m n nrhs lda ldb mem mem') {k x : Nat} (hk : k ≠ 1)
    (hA : k = 0 → ∀ i j, i < m → j < n → x ≠ i + j * lda)
    (hB : k = 2 → ∀ i j, i < max m n → j < nrhs → x ≠ i + j * ldb) : mem' (.usr k, x) = mem (.usr k, x) := by
  classical
  unfold Zgels at h
  by_cases h0 : min m (min n nrhs) = 0
  · rw [if_pos h0] at h
    rw [h, zeroB_eq, if_neg]
    rintro ⟨i, j, hi, hj, e⟩
    rw [Prod.mk.injEq, Buf.usr.injEq] at e
    exact hB e.1 i j hi hj e.2
  · rw [if_neg h0] at h
    obtain ⟨s, -, -, -, -, h1, -⟩ := gels_run gKern_spec hok hnb hib hlda hldb h0 h
    exact h1 k x hk hA hB

/-- **C37**, part: in the least squares cases the residual sum of squares is the sum of squares of the remaining elements
of the column of `B` (compute/zgels.c:77-91).

Missing as in `C37_noTrans_partial`, and the case of no unknowns (`n = 0`, or `m = 0` with `trans = Plasma_ConjTrans`), see `C37_residual_refuted`. -/
theorem C37_residual_partial (hdv : IsDiv dv) (hok : HMode.ok hm) (hnb : 0 < nb) (hib : 0 < ib) (hlda : m ≤ lda)
    (hldb : max m n ≤ ldb) (hcl : TClean hm mem) (h : Zgels dv hm ib nb t m n nrhs lda ldb mem mem') (hmn : m ≠ 0 ∧ n ≠ 0) {c : Nat} (hc : c < nrhs) :
    (t = false → n ≤ m → FullColRank (uArr mem 0 lda m n) →
      ∑ i, ‖uCol mem ldb m c i - (uArr mem 0 lda m n *ᵥ uCol mem' ldb n c) i‖ ^ 2 =
        ∑ i : Fin m, if n ≤ i then ‖uCol mem' ldb m c i‖ ^ 2 else 0) ∧
    (t = true → m < n → FullColRank (uArr mem 0 lda m n)ᴴ →
      ∑ i, ‖uCol mem ldb n c i - ((uArr mem 0 lda m n)ᴴ *ᵥ uCol mem' ldb m c) i‖ ^ 2 =
        ∑ i : Fin n, if m ≤ i then ‖uCol mem' ldb n c i‖ ^ 2 else 0) := by
  unfold Zgels at h
  rw [if_neg (by omega)] at h
  obtain ⟨h1, h2⟩ := gels_holds hdv gKern_spec hok hnb hib hlda hldb (by omega) hcl h
  exact ⟨fun ht hmn hr => (((h1 hmn hr).2 c hc).1 ht).2, fun ht hmn hr => (((h2 hmn hr).2 c hc).1 ht).2⟩

/-- The residual claim of compute/zgels.c:77-81 fails for `n = 0`: the residual is `B` itself, but `B` is set to zero
(compute/zgels.c:157-162). -/
theorem C37_residual_refuted (hm0 : 0 < m) (hldb : m ≤ ldb) (hb : mem (.usr 2, 0) ≠ 0)
    (h : Zgels dv hm ib nb false m 0 1 lda ldb mem mem') :
    ∑ i, ‖uCol mem ldb m 0 i - (uArr mem 0 lda m 0 *ᵥ uCol mem' ldb 0 0) i‖ ^ 2 ≠
      ∑ i : Fin m, if 0 ≤ (i : Nat) then ‖uCol mem' ldb m 0 i‖ ^ 2 else 0 := by
  unfold Zgels at h
  rw [if_pos (by omega)] at h
  have h3 : uCol mem' ldb m 0 = 0 := by rw [h, zeroB_uCol (by omega) (by omega)]
  rw [h3, sum_eq_zero (f := fun i : Fin m => if 0 ≤ (i : Nat) then ‖(0 : Fin m → 𝕜) i‖ ^ 2 else 0) fun i _ => by simp]
  have e : ∀ i, (uArr mem 0 lda m 0 *ᵥ uCol mem' ldb 0 0) i = 0 := fun i => by
    unfold mulVec dotProduct
    exact sum_eq_zero fun j _ => j.elim0
  simp only [e, sub_zero]
  intro hs
  rw [sum_eq_zero_iff_of_nonneg fun i _ => by positivity] at hs
  have := hs ⟨0, hm0⟩ (mem_univ _)
  rw [sq_eq_zero_iff, norm_eq_zero] at this
  exact hb (by simpa [uCol] using this)

end

section

/-- Complex division. -/
example : IsDiv (fun a b : ℂ => a / b) := ⟨fun _ _ _ => rfl⟩

/-- Executions exist. -/
example (mem : Buf × Nat → ℂ) (t : Bool) : ∃ mem', Zgels (fun a b => a / b) (some 4) 3 5 t 7 12 2 8 12 mem mem' := by
  obtain ⟨mem', h⟩ := gels_exists (dv := fun a b => a / b) (gKern_spec (𝕜 := ℂ) (m := 7) (n := 12)) (hm := some 4) (t := t) (nrhs := 2) (lda := 8)
    (by intro c h; cases h; omega) (nb := 5) (ib := 3) (m := 7) (n := 12) (ldb := 12) (by omega) (by omega) (by omega)
    (by omega) (by decide) mem
  exact ⟨mem', by unfold Zgels; rw [if_neg (by decide)]; exact h⟩

/-- A call with a matrix of full rank. -/
example (t : Bool) : ∃ mem mem' : Buf × Nat → ℂ, TClean (some 4) mem ∧ FullColRank (uArr mem 0 4 4 2) ∧
    Zgels (fun a b => a / b) (some 4) 2 3 t 4 2 2 4 4 mem mem' := by
  refine ⟨fun x : Buf × Nat => if x.1 ≠ .usr 1 ∧ x.2 % 4 = x.2 / 4 then (1 : ℂ) else 0, ?_⟩
  obtain ⟨mem', h⟩ := gels_exists (dv := fun a b => a / b) (gKern_spec (𝕜 := ℂ) (m := 4) (n := 2)) (hm := some 4) (t := t) (nrhs := 2) (lda := 4)
    (by intro c h; cases h; omega) (nb := 3) (ib := 2) (m := 4) (n := 2) (ldb := 4) (by omega) (by omega) (by omega)
    (by omega) (by decide) (fun x : Buf × Nat => if x.1 ≠ .usr 1 ∧ x.2 % 4 = x.2 / 4 then (1 : ℂ) else 0)
  refine ⟨mem', Or.inr fun x => if_neg fun h => h.1 rfl, ?_, by unfold Zgels; rw [if_neg (by decide)]; exact h⟩
  intro y h
  funext j
  have := congrFun h (Fin.castLE (by omega) j)
  fin_cases j <;> simpa [uArr, mulVec, dotProduct, Fin.sum_univ_two] using this

/-- The case without unknowns. -/
example : ∃ mem mem' : Buf × Nat → ℂ, mem (.usr 2, 0) ≠ 0 ∧ Zgels (fun a b => a / b) none 1 1 false 2 0 1 2 2 mem mem' :=
  ⟨fun _ => 1, zeroB 2 0 1 2 fun _ => 1, one_ne_zero, by unfold Zgels; rw [if_pos (by decide)]⟩

end

end Verif.Props

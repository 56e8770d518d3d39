/-
Properties of the solvers that follow a QR or an LQ factorization: C62.
-/
import Verif.Props.Gels

namespace Verif.Props

open Verif.Layout Verif.Tile Verif.Tree Verif.Qr Verif.Ls Verif.Fact Finset Matrix

universe v

set_option linter.unusedSectionVars false

variable {𝕜 : Type} [RCLike 𝕜] [DecidableEq 𝕜]

/-! ### Programs -/

/-- `plasma_omp_zgeqrs` (compute/zgeqrs.c:272-293) for valid descriptors. -/
noncomputable def ompZgeqrs {M : Type} (dv : 𝕜 → 𝕜 → 𝕜) (hm : HMode) (A T B : TMat M) : List (TTask (M × Nat × Nat) 𝕜) :=
  if A.d.m = 0 ∨ A.d.n = 0 ∨ B.d.n = 0 then []
  else appQR hm true A T B ++
    pztrsm dv .left .upper .noTrans .nonUnit 1 (A.sub 0 0 A.d.n A.d.n) (B.sub 0 0 A.d.n B.d.n)

/-- `plasma_omp_zgelqs` (compute/zgelqs.c:270-296) for valid descriptors. -/
noncomputable def ompZgelqs {M : Type} (dv : 𝕜 → 𝕜 → 𝕜) (hm : HMode) (A T B : TMat M) : List (TTask (M × Nat × Nat) 𝕜) :=
  if A.d.m = 0 ∨ A.d.n = 0 ∨ B.d.n = 0 then []
  else pzlaset none 0 0 (B.sub A.d.m 0 (A.d.n - A.d.m) B.d.n) ++
    (pztrsm dv .left .lower .noTrans .nonUnit 1 (A.sub 0 0 A.d.m A.d.m) (B.sub 0 0 A.d.m B.d.n) ++
    appLQ hm true A T B)

/-- Tasks created by `plasma_zgeqrs` (compute/zgeqrs.c:106-166) for valid arguments: `A` is `m` by `n` (array 0), `B` is `m`
by `nrhs` (array 2), `T` is array 1; only `B` is translated back. -/
noncomputable def zgeqrs (dv : 𝕜 → 𝕜 → 𝕜) (hm : HMode) (ib nb m n nrhs : Nat) : List (TTask (Buf × Nat × Nat) 𝕜) :=
  let dims := qrDims (m, n) (m, nrhs)
  if m = 0 ∨ n = 0 ∨ nrhs = 0 then []
  else driverV nb dims dims [0, 2] (ompZgeqrs dv hm (tVw nb dims dims 0) (qrT hm ib nb m n) (tVw nb dims dims 2)) [2]

/-- Tasks created by `plasma_zgelqs` (compute/zgelqs.c:105-165) for valid arguments: `A` is `m` by `n` (array 0), `B` is `n`
by `nrhs` (array 2), `T` is array 1; only `B` is translated back. -/
noncomputable def zgelqs (dv : 𝕜 → 𝕜 → 𝕜) (hm : HMode) (ib nb m n nrhs : Nat) : List (TTask (Buf × Nat × Nat) 𝕜) :=
  let dims := qrDims (m, n) (n, nrhs)
  if m = 0 ∨ n = 0 ∨ nrhs = 0 then []
  else driverV nb dims dims [0, 2] (ompZgelqs dv hm (tVw nb dims dims 0) (qrT hm ib nb m n) (tVw nb dims dims 2)) [2]

/-! ### Proofs -/

section
variable {dv : 𝕜 → 𝕜 → 𝕜} {hm : HMode} {ib nb m n nrhs lda ldb : Nat}

theorem qio {a c : Nat × Nat} (k : Nat) (hk : k ∈ [0, 2]) : k ≠ 1 ∧ (qrDims a c k).1 ≤ (qrDims a c k).1 ∧
    (qrDims a c k).2 ≤ (qrDims a c k).2 := by
  simp only [List.mem_cons, List.not_mem_nil, or_false] at hk
  exact ⟨by omega, le_rfl, le_rfl⟩

theorem qio2 {a c : Nat × Nat} (k : Nat) (hk : k ∈ [2]) : k ≠ 1 ∧ (qrDims a c k).1 ≤ (qrDims a c k).1 ∧
    (qrDims a c k).2 ≤ (qrDims a c k).2 := by
  simp only [List.mem_cons, List.not_mem_nil, or_false] at hk
  exact ⟨by omega, le_rfl, le_rfl⟩

theorem ompZgeqrs_eq (hnb : 0 < nb) (h0 : ¬ (m = 0 ∨ n = 0 ∨ nrhs = 0)) :
    ompZgeqrs dv hm (tVw nb (qrDims (m, n) (m, nrhs)) (qrDims (m, n) (m, nrhs)) 0) (qrT hm ib nb m n)
      (tVw nb (qrDims (m, n) (m, nrhs)) (qrDims (m, n) (m, nrhs)) 2) =
    (hOps hm (ceilDiv m nb) (ceilDiv n nb)).flatMap (updL true ib (hOff hm (qrT hm ib nb m n))
      (tVw nb (qrDims (m, n) (m, nrhs)) (qrDims (m, n) (m, nrhs)) 0) (qrT hm ib nb m n)
      (tVw nb (qrDims (m, n) (m, nrhs)) (qrDims (m, n) (m, nrhs)) 2)
      (List.range (tVw nb (qrDims (m, n) (m, nrhs)) (qrDims (m, n) (m, nrhs)) 2).d.nt)) ++
    pztrsm dv .left .upper .noTrans .nonUnit 1 ((tVw nb (qrDims (m, n) (m, nrhs)) (qrDims (m, n) (m, nrhs)) 0).sub 0 0 n n)
      ((tVw nb (qrDims (m, n) (m, nrhs)) (qrDims (m, n) (m, nrhs)) 2).sub 0 0 n nrhs) := by
  unfold ompZgeqrs
  refine (if_neg (show ¬ (m = 0 ∨ n = 0 ∨ nrhs = 0) from h0)).trans ?_
  rw [appQR_eq (A := tVw nb (qrDims (m, n) (m, nrhs)) (qrDims (m, n) (m, nrhs)) 0)
    (C := tVw nb (qrDims (m, n) (m, nrhs)) (qrDims (m, n) (m, nrhs)) 2) (al_tVw hnb 0) (al_tVw hnb 2) rfl
    (show ¬ (m = 0 ∨ nrhs = 0 ∨ m = 0 ∨ n = 0) by omega), if_pos rfl, al_mt (k := 0) hnb, al_nt (k := 0) hnb]
  rfl

theorem ompZgelqs_eq (hnb : 0 < nb) (h0 : ¬ (m = 0 ∨ n = 0 ∨ nrhs = 0)) :
    ompZgelqs dv hm (tVw nb (qrDims (m, n) (n, nrhs)) (qrDims (m, n) (n, nrhs)) 0) (qrT hm ib nb m n)
      (tVw nb (qrDims (m, n) (n, nrhs)) (qrDims (m, n) (n, nrhs)) 2) =
    pzlaset none 0 0 ((tVw nb (qrDims (m, n) (n, nrhs)) (qrDims (m, n) (n, nrhs)) 2).sub m 0 (n - m) nrhs) ++
    (pztrsm dv .left .lower .noTrans .nonUnit 1 ((tVw nb (qrDims (m, n) (n, nrhs)) (qrDims (m, n) (n, nrhs)) 0).sub 0 0 m m)
      ((tVw nb (qrDims (m, n) (n, nrhs)) (qrDims (m, n) (n, nrhs)) 2).sub 0 0 m nrhs) ++
    (hOps hm (ceilDiv n nb) (ceilDiv m nb)).reverse.flatMap (lupdL false true ib (hOff hm (qrT hm ib nb m n))
      (tVw nb (qrDims (m, n) (n, nrhs)) (qrDims (m, n) (n, nrhs)) 0) (qrT hm ib nb m n)
      (tVw nb (qrDims (m, n) (n, nrhs)) (qrDims (m, n) (n, nrhs)) 2)
      (List.range (tVw nb (qrDims (m, n) (n, nrhs)) (qrDims (m, n) (n, nrhs)) 2).d.nt))) := by
  unfold ompZgelqs
  refine (if_neg (show ¬ (m = 0 ∨ n = 0 ∨ nrhs = 0) from h0)).trans ?_
  rw [appLQ_eq (A := tVw nb (qrDims (m, n) (n, nrhs)) (qrDims (m, n) (n, nrhs)) 0)
    (C := tVw nb (qrDims (m, n) (n, nrhs)) (qrDims (m, n) (n, nrhs)) 2) (al_tVw hnb 0) (al_tVw hnb 2) rfl
    (show ¬ (n = 0 ∨ nrhs = 0 ∨ m = 0 ∨ n = 0) by omega), if_pos rfl, al_mt (k := 0) hnb, al_nt (k := 0) hnb]
  rfl

/-- Footprints. -/
theorem geqrs_gw (hok : HMode.ok hm) (hnb : 0 < nb) (h0 : ¬ (m = 0 ∨ n = 0 ∨ nrhs = 0)) (hmn : n ≤ m) :
    Good (evalid (qrEnv hm ib nb m n (m, n) lda (m, nrhs) ldb))
      (ompZgeqrs dv hm (tVw nb (qrDims (m, n) (m, nrhs)) (qrDims (m, n) (m, nrhs)) 0) (qrT hm ib nb m n)
        (tVw nb (qrDims (m, n) (m, nrhs)) (qrDims (m, n) (m, nrhs)) 2)) ∧
    Writes (fun x => x.1 = .til 2)
      (ompZgeqrs dv hm (tVw nb (qrDims (m, n) (m, nrhs)) (qrDims (m, n) (m, nrhs)) 0) (qrT hm ib nb m n)
        (tVw nb (qrDims (m, n) (m, nrhs)) (qrDims (m, n) (m, nrhs)) 2)) := by
  rw [ompZgeqrs_eq hnb h0]
  set dims := qrDims (m, n) (m, nrhs) with hdims
  have d0 : dims 0 = (m, n) := rfl
  have hmt := ceilDiv_pos (m := m) hnb (by omega)
  have hnt := ceilDiv_pos (m := n) hnb (by omega)
  have hAl : (tVw nb dims dims 0).Al nb := al_tVw hnb 0
  have hBl : (tVw nb dims dims 2).Al nb := al_tVw hnb 2
  have vA : TilesV (evalid (qrEnv hm ib nb m n (m, n) lda (m, nrhs) ldb)) nb (tVw nb dims dims 0) :=
    tiles_vw hnb ⟨le_rfl, le_rfl⟩
  have vB : TilesV (evalid (qrEnv hm ib nb m n (m, n) lda (m, nrhs) ldb)) nb (tVw nb dims dims 2) :=
    tiles_vw hnb ⟨le_rfl, le_rfl⟩
  have fA : Fits (qrEnv hm ib nb m n (m, n) lda (m, nrhs) ldb) nb (tVw nb dims dims 0) := fits_tVw hnb ⟨le_rfl, le_rfl⟩
  have fB : Fits (qrEnv hm ib nb m n (m, n) lda (m, nrhs) ldb) nb (tVw nb dims dims 2) := fits_tVw hnb ⟨le_rfl, le_rfl⟩
  have ho : OpsOK (tVw nb dims dims 0).d.mt (tVw nb dims dims 0).d.nt (hOps hm (ceilDiv m nb) (ceilDiv n nb)) := by
    rw [al_mt hnb, al_nt hnb]
    exact hOps_ok hok hmt hnt
  have hTv := qrT_valid (hm := hm) (ib := ib) (m := m) (n := n) (a := (m, n)) (c := (m, nrhs)) (lda := lda) (ldc := ldb)
    hnb (ops_inB (hOps_ok hok hmt hnt))
  refine ⟨Good.append (Good.flatMap fun o h => updL_good hAl hBl rfl vA vB (fun n hn => List.mem_range.mp hn)
    (ops_inB ho o h) (hTv o h)) ?_, updL_ws.append (pztrsm_writes (TMat.sub_al hBl n nrhs) rfl rfl)⟩
  exact pztrsm_good ((TMat.sub_fits fA hmn le_rfl).mono fun _ _ _ => trivial) (TMat.sub_fits fB hmn le_rfl) rfl rfl le_rfl le_rfl

/-- Footprints. -/
theorem gelqs_gw (hok : HMode.ok hm) (hnb : 0 < nb) (h0 : ¬ (m = 0 ∨ n = 0 ∨ nrhs = 0)) (hmn : m ≤ n) :
    Good (evalid (qrEnv hm ib nb m n (m, n) lda (n, nrhs) ldb))
      (ompZgelqs dv hm (tVw nb (qrDims (m, n) (n, nrhs)) (qrDims (m, n) (n, nrhs)) 0) (qrT hm ib nb m n)
        (tVw nb (qrDims (m, n) (n, nrhs)) (qrDims (m, n) (n, nrhs)) 2)) ∧
    Writes (fun x => x.1 = .til 2)
      (ompZgelqs dv hm (tVw nb (qrDims (m, n) (n, nrhs)) (qrDims (m, n) (n, nrhs)) 0) (qrT hm ib nb m n)
        (tVw nb (qrDims (m, n) (n, nrhs)) (qrDims (m, n) (n, nrhs)) 2)) := by
  rw [ompZgelqs_eq hnb h0]
  set dims := qrDims (m, n) (n, nrhs) with hdims
  have d0 : dims 0 = (m, n) := rfl
  have hmt := ceilDiv_pos (m := m) hnb (by omega)
  have hnt := ceilDiv_pos (m := n) hnb (by omega)
  have hAl : (tVw nb dims dims 0).Al nb := al_tVw hnb 0
  have hBl : (tVw nb dims dims 2).Al nb := al_tVw hnb 2
  have vA : TilesV (evalid (qrEnv hm ib nb m n (m, n) lda (n, nrhs) ldb)) nb (tVw nb dims dims 0) :=
    tiles_vw hnb ⟨le_rfl, le_rfl⟩
  have vB : TilesV (evalid (qrEnv hm ib nb m n (m, n) lda (n, nrhs) ldb)) nb (tVw nb dims dims 2) :=
    tiles_vw hnb ⟨le_rfl, le_rfl⟩
  have fA : Fits (qrEnv hm ib nb m n (m, n) lda (n, nrhs) ldb) nb (tVw nb dims dims 0) := fits_tVw hnb ⟨le_rfl, le_rfl⟩
  have fB : Fits (qrEnv hm ib nb m n (m, n) lda (n, nrhs) ldb) nb (tVw nb dims dims 2) := fits_tVw hnb ⟨le_rfl, le_rfl⟩
  have ho : OpsOK (tVw nb dims dims 0).d.nt (tVw nb dims dims 0).d.mt (hOps hm (ceilDiv n nb) (ceilDiv m nb)) := by
    rw [al_mt hnb, al_nt hnb]
    exact hOps_ok hok hnt hmt
  have hTv := lqT_valid (hm := hm) (ib := ib) (m := m) (n := n) (a := (m, n)) (c := (n, nrhs)) (lda := lda) (ldc := ldb)
    hnb (ops_inB (hOps_ok hok hnt hmt))
  refine ⟨Good.append (laset_sub_good fB rfl rfl) (Good.append ?_ (Good.flatMap fun o h => lupdL_good hAl hBl rfl vA vB
    (fun n hn => List.mem_range.mp hn) (ops_inB ho o (List.mem_reverse.mp h)) (hTv o (List.mem_reverse.mp h)))),
    Writes.append (laset_sub_ws hBl rfl rfl) ((pztrsm_writes (TMat.sub_al hBl m nrhs) rfl rfl).append lupdL_ws)⟩
  exact pztrsm_good ((TMat.sub_fits fA le_rfl hmn).mono fun _ _ _ => trivial) (TMat.sub_fits fB hmn le_rfl) rfl rfl le_rfl le_rfl

/-- Only `B` changes. -/
theorem qrs_frame {d : Nat} {P : List (TTask (Buf × Nat × Nat) 𝕜)} (hnb : 0 < nb) (hib : 0 < ib) (hlda : m ≤ lda)
    (hldb : d ≤ ldb) (hg : Good (evalid (qrEnv hm ib nb m n (m, n) lda (d, nrhs) ldb)) P)
    (hw : Writes (fun x => x.1 = .til 2) P) {mem1 mem2 : Buf × Nat → 𝕜}
    (h : Exec (qrEnv hm ib nb m n (m, n) lda (d, nrhs) ldb)
      (driverV nb (qrDims (m, n) (d, nrhs)) (qrDims (m, n) (d, nrhs)) [0, 2] P [2]) mem1 mem2) :
    ∀ k x, k ≠ 2 ∨ (∀ i j, i < d → j < nrhs → x ≠ i + j * ldb) → mem2 (.usr k, x) = mem1 (.usr k, x) := by
  obtain ⟨s1, e1, e2, e3, e4, e5, e6⟩ := drvT_correct hnb hib (qrLd_ok hlda hldb) (by decide) (by decide) qio qio2 hg
    (hw.mono fun x hx => Or.inl ⟨2, hx⟩) h
  intro k x hk
  by_cases hk1 : k = 1
  · subst hk1
    exact drvT_frameT hnb hib (qrLd_ok hlda hldb) qio qio2 hg (hw.mono fun x hx => ⟨2, hx⟩) h x
  · by_cases hk2 : k = 2
    · subst hk2
      refine e6 2 x (by decide) ?_
      rcases hk with hk | hk
      · exact absurd rfl hk
      · exact hk
    · exact e5 k (by simp [hk2]) hk1 x

/-- The solve after a QR factorization. -/
theorem geqrs_holds (hdv : IsDiv dv) (hok : HMode.ok hm) (hnb : 0 < nb) (hib : 0 < ib) (hlda : m ≤ lda)
    (hldb : m ≤ ldb) (h0 : ¬ (m = 0 ∨ n = 0 ∨ nrhs = 0)) (hmn : n ≤ m) {mem' mem1 mem2 : Buf × Nat → 𝕜}
    {F : Matrix (Fin m) (Fin n) 𝕜} {Q : Matrix (Fin m) (Fin m) 𝕜} (hu : Q ∈ unitaryGroup (Fin m) 𝕜)
    (hQ : Holds hm ib nb m n lda mem' Q) (hF : Q * uArrU mem' 0 lda m n = F) (hr : FullColRank F)
    (hA1 : ∀ r c, r < m → c < n → mem1 (.usr 0, r + c * lda) = mem' (.usr 0, r + c * lda))
    (hT1 : ∀ x, mem1 (.usr 1, x) = mem' (.usr 1, x))
    (h : Exec (qrEnv hm ib nb m n (m, n) lda (m, nrhs) ldb) (zgeqrs dv hm ib nb m n nrhs) mem1 mem2) {c : Nat}
    (hc : c < nrhs) :
    IsLeastSquares F (uCol mem1 ldb m c) (uCol mem2 ldb n c) ∧
    ∑ i, ‖uCol mem1 ldb m c i - (F *ᵥ uCol mem2 ldb n c) i‖ ^ 2 = ∑ i : Fin m, if n ≤ i then ‖uCol mem2 ldb m c i‖ ^ 2 else 0 := by
  unfold zgeqrs at h
  dsimp only at h
  rw [if_neg h0] at h
  obtain ⟨hg, hw⟩ := geqrs_gw (dv := dv) (lda := lda) (ldb := ldb) (ib := ib) hok hnb h0 hmn
  obtain ⟨s1, e1, e2, e3, e4, e5, e6⟩ := drvT_correct hnb hib (qrLd_ok hlda hldb) (by decide) (by decide) qio qio2 hg
    (hw.mono fun x hx => Or.inl ⟨2, hx⟩) h
  rw [ompZgeqrs_eq hnb h0] at e3
  set dims := qrDims (m, n) (m, nrhs) with hdims
  have d0 : dims 0 = (m, n) := rfl
  have hmt := ceilDiv_pos (m := m) hnb (by omega)
  have hnt := ceilDiv_pos (m := n) hnb (by omega)
  have hAl : (tVw nb dims dims 0).Al nb := al_tVw hnb 0
  have hBl : (tVw nb dims dims 2).Al nb := al_tVw hnb 2
  have hmin : min m n = n := by omega
  have hTB : (qrT hm ib nb m n).id ≠ (tVw nb dims dims 2).id := fun e => by cases e
  have hAB : (tVw nb dims dims 0).id ≠ (tVw nb dims dims 2).id := fun e => by cases e
  have hin : ∀ o ∈ hOps hm (ceilDiv m nb) (ceilDiv n nb), o.inB (tVw nb dims dims 0).d.mt (tVw nb dims dims 0).d.nt := by
    intro o ho
    rw [al_mt hnb, al_nt hnb]
    exact ops_inB (hOps_ok hok hmt hnt) o ho
  have eA : ∀ r c, r < m → c < n → (tVw nb dims dims 0).el s1 r c = mem1 (.usr 0, r + c * lda) := fun r c hr hc =>
    e1 0 (by simp) r c hr hc
  have eB : ∀ r c, r < m → c < nrhs → (tVw nb dims dims 2).el s1 r c = mem1 (.usr 2, r + c * ldb) := fun r c hr hc =>
    e1 2 (by simp) r c hr hc
  have hq := holds_later hok hnb (by omega) hQ (fun r c hr hc => hA1 r c hr (by omega)) hT1 hAl (s1 := s1)
    (fun r c hr hc => eA r c hr (by omega)) e2
  rw [hmin] at hq
  have hB2 : ∀ r c, r < m → c < nrhs → (tVw nb dims dims 2).el (texec ((hOps hm (ceilDiv m nb) (ceilDiv n nb)).flatMap
      (updL true ib (hOff hm (qrT hm ib nb m n)) (tVw nb dims dims 0) (qrT hm ib nb m n) (tVw nb dims dims 2)
        (List.range (tVw nb dims dims 2).d.nt))) s1) r c = lmul (qop true Q) ((tVw nb dims dims 2).el s1) r c := by
    intro r c hr hc
    have := unmqr_left (t := true) (ib := ib) (off := hOff hm (qrT hm ib nb m n)) (mm := m) (na := n) hAl hBl rfl rfl rfl hTB hAB
      hin s1 hr hc
    rw [hq] at this
    exact this
  have e3' : ∀ r c, r < m → c < nrhs → mem2 (.usr 2, r + c * ldb) = _ := fun r c hr hc => e3 2 (by simp) r c hr hc
  simp only [texec_append] at e3'
  set s2 := texec ((hOps hm (ceilDiv m nb) (ceilDiv n nb)).flatMap
      (updL true ib (hOff hm (qrT hm ib nb m n)) (tVw nb dims dims 0) (qrT hm ib nb m n) (tVw nb dims dims 2)
        (List.range (tVw nb dims dims 2).d.nt))) s1 with hs2
  have hA2 : (tVw nb dims dims 0).el s2 = (tVw nb dims dims 0).el s1 := el_frame (C := tVw nb dims dims 0) updL_ws (fun q q' h => hAB h) s1
  have hR : ∀ (i : Fin m) (j : Fin n), (j : Nat) < i → uArrU mem' 0 lda m n i j = 0 := fun i j h => if_neg (by omega)
  have := over_core hmn hu hR hF.symm hr hAl hBl hAB s2 (u := .upper) (t := .noTrans) (rhs := uCol mem1 ldb m c) (fun i l => by
    rw [hA2]
    refine (trE_triu ..).trans ?_
    show triu _ (i : Nat) l = if (i : Nat) ≤ l then mem' (.usr 0, i + l * lda) else 0
    unfold triu
    rw [eA i l (by omega) l.2, hA1 i l (by omega) l.2]) hc (fun i => by
    rw [hB2 i c i.2 hc, lmul_mulVec]
    have : (fun i : Fin m => (tVw nb dims dims 2).el s1 i c) = uCol mem1 ldb m c := funext fun i => eB i c i.2 hc
    rw [this]; rfl) hdv
  have hx : ∀ k, k ≤ m → uCol mem2 ldb k c = fun i : Fin k => (tVw nb dims dims 2).el (texec (pztrsm dv .left .upper .noTrans
      .nonUnit 1 ((tVw nb dims dims 0).sub 0 0 n n) ((tVw nb dims dims 2).sub 0 0 n nrhs)) s2) i c := fun k hk =>
    funext fun i => e3' i c (by omega) hc
  rw [hx n hmn, hx m le_rfl]
  exact this

/-- The solve after an LQ factorization. -/
theorem gelqs_holds (hdv : IsDiv dv) (hok : HMode.ok hm) (hnb : 0 < nb) (hib : 0 < ib) (hlda : m ≤ lda)
    (hldb : n ≤ ldb) (h0 : ¬ (m = 0 ∨ n = 0 ∨ nrhs = 0)) (hmn : m ≤ n) {mem' mem1 mem2 : Buf × Nat → 𝕜}
    {F : Matrix (Fin m) (Fin n) 𝕜} {Q : Matrix (Fin n) (Fin n) 𝕜} (hu : Q ∈ unitaryGroup (Fin n) 𝕜)
    (hQ : LHolds hm ib nb m n lda mem' Q) (hF : uArrL mem' 0 lda m n * Q = F) (hr : FullColRank Fᴴ)
    (hA1 : ∀ r c, r < m → c < n → mem1 (.usr 0, r + c * lda) = mem' (.usr 0, r + c * lda))
    (hT1 : ∀ x, mem1 (.usr 1, x) = mem' (.usr 1, x))
    (h : Exec (qrEnv hm ib nb m n (m, n) lda (n, nrhs) ldb) (zgelqs dv hm ib nb m n nrhs) mem1 mem2) {c : Nat}
    (hc : c < nrhs) : IsMinNorm F (uCol mem1 ldb m c) (uCol mem2 ldb n c) := by
  unfold zgelqs at h
  dsimp only at h
  rw [if_neg h0] at h
  obtain ⟨hg, hw⟩ := gelqs_gw (dv := dv) (lda := lda) (ldb := ldb) (ib := ib) hok hnb h0 hmn
  obtain ⟨s1, e1, e2, e3, e4, e5, e6⟩ := drvT_correct hnb hib (qrLd_ok hlda hldb) (by decide) (by decide) qio qio2 hg
    (hw.mono fun x hx => Or.inl ⟨2, hx⟩) h
  rw [ompZgelqs_eq hnb h0] at e3
  set dims := qrDims (m, n) (n, nrhs) with hdims
  have d0 : dims 0 = (m, n) := rfl
  have hmt := ceilDiv_pos (m := m) hnb (by omega)
  have hnt := ceilDiv_pos (m := n) hnb (by omega)
  have hAl : (tVw nb dims dims 0).Al nb := al_tVw hnb 0
  have hBl : (tVw nb dims dims 2).Al nb := al_tVw hnb 2
  have hmin : min m n = m := by omega
  have hTB : (qrT hm ib nb m n).id ≠ (tVw nb dims dims 2).id := fun e => by cases e
  have hAB : (tVw nb dims dims 0).id ≠ (tVw nb dims dims 2).id := fun e => by cases e
  have hin : ∀ o ∈ hOps hm (ceilDiv n nb) (ceilDiv m nb), o.inB (tVw nb dims dims 0).d.nt (tVw nb dims dims 0).d.mt := by
    intro o ho
    rw [al_mt hnb, al_nt hnb]
    exact ops_inB (hOps_ok hok hnt hmt) o ho
  have eA : ∀ r c, r < m → c < n → (tVw nb dims dims 0).el s1 r c = mem1 (.usr 0, r + c * lda) := fun r c hr hc =>
    e1 0 (by simp) r c hr hc
  have eB : ∀ r c, r < n → c < nrhs → (tVw nb dims dims 2).el s1 r c = mem1 (.usr 2, r + c * ldb) := fun r c hr hc =>
    e1 2 (by simp) r c hr hc
  have e3' : ∀ r c, r < n → c < nrhs → mem2 (.usr 2, r + c * ldb) = _ := fun r c hr hc => e3 2 (by simp) r c hr hc
  simp only [texec_append] at e3'
  have w2 : Writes (fun x => x.1 = .til 2) (pzlaset (α := 𝕜) none 0 0 ((tVw nb dims dims 2).sub m 0 (n - m) nrhs)) :=
    laset_sub_ws hBl rfl rfl
  have hB2 : ∀ r c, r < n → c < nrhs → (tVw nb dims dims 2).el (texec (pzlaset none 0 0
      ((tVw nb dims dims 2).sub m 0 (n - m) nrhs)) s1) r c = if m ≤ r then 0 else (tVw nb dims dims 2).el s1 r c :=
    fun r c hr hc => laset_sub_el hBl rfl rfl s1 hr hc
  set s2 := texec (pzlaset none 0 0 ((tVw nb dims dims 2).sub m 0 (n - m) nrhs)) s1 with hs2
  have hA2 : (tVw nb dims dims 0).el s2 = (tVw nb dims dims 0).el s1 := el_frame (C := tVw nb dims dims 0) w2 (fun q q' h => hAB h) s1
  have hBB : ((tVw nb dims dims 2).sub 0 0 m nrhs).Al nb := TMat.sub_al hBl ..
  set s3 := texec (pztrsm dv .left .lower .noTrans .nonUnit 1 ((tVw nb dims dims 0).sub 0 0 m m)
    ((tVw nb dims dims 2).sub 0 0 m nrhs)) s2 with hs3
  have hA3 : (tVw nb dims dims 0).el s3 = (tVw nb dims dims 0).el s2 := trsm_A hBB hAB s2
  have hT3 : ∀ x i j, x.1 = .usr 1 → s3 x i j = s1 x i j := by
    intro x i j hx
    rw [hs3, (pztrsm_writes hBB rfl rfl).frame s2 (by rw [hx]; exact hTB), hs2, w2.frame s1 (by rw [hx]; exact hTB)]
  have hq := lholds_later hok hnb (by omega) hQ (fun r c hr hc => hA1 r c (by omega) hc) hT1 hAl (fun e => by cases e) (s1 := s3)
    (fun r c hr hc => by rw [hA3, hA2]; exact eA r c (by omega) hc) (fun t i j ht => by rw [hT3 t i j ht]; exact e2 t i j ht)
  rw [hmin] at hq
  have hR : ∀ (i : Fin n) (j : Fin m), (j : Nat) < i → (uArrL mem' 0 lda m n)ᴴ i j = 0 := fun i j h => by
    show star (if (i : Nat) ≤ j then mem' (.usr 0, j + i * lda) else 0) = 0
    rw [if_neg (by omega), star_zero]
  have := under_core (rhs := uCol mem1 ldb m c) (F := Fᴴ) hmn (Unitary.star_mem hu) hR (by rw [← hF, conjTranspose_mul]; rfl) hr
    hAl hBl hAB s2 (u := .lower) (t := .noTrans) (fun i l => ?_) hc (fun i => ?_) (fun i hi => ?_) hdv
    (x := uCol mem2 ldb n c) ?_
  · rw [conjTranspose_conjTranspose] at this
    exact this
  · rw [hA2]
    refine (trE_tril ..).trans ?_
    show _ = star (star (if (l : Nat) ≤ i then mem' (.usr 0, i + l * lda) else 0))
    rw [star_star]
    show tril _ (i : Nat) l = _
    unfold tril
    rw [eA i l i.2 (by omega), hA1 i l i.2 (by omega)]
  · rw [hB2 i c (by omega) hc, if_neg (by omega)]
    exact eB i c (by omega) hc
  · rw [hB2 i c i.2 hc, if_pos hi]
  · funext i
    have := unmlq_left (mm := m) (na := n) (t := true) (ib := ib) (F := lFlip hm ib nb m n) (T := qrT hm ib nb m n) (T' := qrT hm ib nb n m)
      (off := hOff hm (qrT hm ib nb m n)) (off' := hOff hm (qrT hm ib nb n m)) false hAl hBl rfl rfl rfl
      (fun e => by cases e) (fun e => by cases e) hAB rfl hin (lFlip_ok hnb (ops_inB (hOps_ok hok hnt hmt))) s3 i.2 hc
    unfold lqQ at hq
    rw [hq, lmul_mulVec] at this
    exact (e3' i c i.2 hc).trans this

/-- Executions exist. -/
theorem geqrs_exists (hok : HMode.ok hm) (hnb : 0 < nb) (hib : 0 < ib) (hlda : m ≤ lda) (hldb : m ≤ ldb) (hmn : n ≤ m)
    (mem : Buf × Nat → 𝕜) :
    ∃ mem', Exec (qrEnv hm ib nb m n (m, n) lda (m, nrhs) ldb) (zgeqrs dv hm ib nb m n nrhs) mem mem' := by
  unfold zgeqrs
  dsimp only
  by_cases h0 : m = 0 ∨ n = 0 ∨ nrhs = 0
  · rw [if_pos h0]
    exact Exec.exists (drvEnvT_wf hnb hib (qrLd_ok hlda hldb)) (by simp) (by simp) mem
  · rw [if_neg h0]
    exact drvT_exists hnb hib (qrLd_ok hlda hldb) qio qio2 (geqrs_gw hok hnb h0 hmn).1 mem

/-- Executions exist. -/
theorem gelqs_exists (hok : HMode.ok hm) (hnb : 0 < nb) (hib : 0 < ib) (hlda : m ≤ lda) (hldb : n ≤ ldb) (hmn : m ≤ n)
    (mem : Buf × Nat → 𝕜) :
    ∃ mem', Exec (qrEnv hm ib nb m n (m, n) lda (n, nrhs) ldb) (zgelqs dv hm ib nb m n nrhs) mem mem' := by
  unfold zgelqs
  dsimp only
  by_cases h0 : m = 0 ∨ n = 0 ∨ nrhs = 0
  · rw [if_pos h0]
    exact Exec.exists (drvEnvT_wf hnb hib (qrLd_ok hlda hldb)) (by simp) (by simp) mem
  · rw [if_neg h0]
    exact drvT_exists hnb hib (qrLd_ok hlda hldb) qio qio2 (gelqs_gw hok hnb h0 hmn).1 mem

/-! ### C62 -/

/-- **C62**, QR, part.  `plasma_zgeqrf` followed, at any later time and any number of times, by `plasma_zgeqrs` in the same
householder mode with the factored matrix and `T` as the factorization left them: if `A` has full column rank, every column
of the leading `n` rows of `B` is a least squares solution of `A X = B`, and the sum of squares of the other `m - n`
elements is the residual sum of squares.

Missing: tree mode with a `T` that was not zero before the factorization, see `C61_geqrf_stale`. -/
theorem C62_geqrs_partial (hdv : IsDiv dv) (hok : HMode.ok hm) (hnb : 0 < nb) (hib : 0 < ib) (hlda : m ≤ lda)
    (hldb : m ≤ ldb) (hmn : n ≤ m) {mem mem' mem1 mem2 : Buf × Nat → 𝕜} (hcl : TClean hm mem)
    (hf : Exec (qrEnv hm ib nb m n (m, n) lda (0, 0) 0) (zgeqrf lkern hm ib nb m n) mem mem')
    (hr : FullColRank (uArr mem 0 lda m n))
    (hA1 : ∀ r c, r < m → c < n → mem1 (.usr 0, r + c * lda) = mem' (.usr 0, r + c * lda))
    (hT1 : ∀ x, mem1 (.usr 1, x) = mem' (.usr 1, x))
    (h : Exec (qrEnv hm ib nb m n (m, n) lda (m, nrhs) ldb) (zgeqrs dv hm ib nb m n nrhs) mem1 mem2) {c : Nat}
    (hc : c < nrhs) :
    IsLeastSquares (uArr mem 0 lda m n) (uCol mem1 ldb m c) (uCol mem2 ldb n c) ∧
    ∑ i, ‖uCol mem1 ldb m c i - (uArr mem 0 lda m n *ᵥ uCol mem2 ldb n c) i‖ ^ 2 =
      ∑ i : Fin m, if n ≤ i then ‖uCol mem2 ldb m c i‖ ^ 2 else 0 := by
  by_cases h0 : m = 0 ∨ n = 0 ∨ nrhs = 0
  · have hn : n = 0 := by omega
    subst hn
    unfold zgeqrs at h
    dsimp only at h
    rw [if_pos h0] at h
    rw [Exec.nil h]
    refine ⟨fun y => by rw [show y = uCol mem1 ldb 0 c from funext fun i => i.elim0], sum_congr rfl fun i _ => ?_⟩
    rw [if_pos (Nat.zero_le _)]
    have : (uArr mem 0 lda m 0 *ᵥ uCol mem1 ldb 0 c) i = 0 := by
      unfold mulVec dotProduct
      exact sum_eq_zero fun j _ => j.elim0
    rw [this, sub_zero]
  · obtain ⟨h1, -⟩ := geqrf_holds lkern_spec hok hnb hib (by omega) hlda hf
    obtain ⟨Q, q1, q2, q3⟩ := h1 hcl
    refine geqrs_holds hdv hok hnb hib hlda hldb h0 hmn q1 q2 (Matrix.ext fun r c => ?_) hr hA1 hT1 h hc
    rw [lmul_mul (Y := uArrU mem' 0 lda m n) (X := triu fun i j => mem' (.usr 0, i + j * lda)) (fun _ _ => rfl)]
    exact q3 r c r.2 c.2

/-- **C62**, LQ, part.  `plasma_zgelqf` followed, at any later time and any number of times, by `plasma_zgelqs` in the same
householder mode with the factored matrix and `T` as the factorization left them: if `A` has full row rank, every column of
the `n` by `nrhs` result is the minimum norm solution of `A X = B`, where `B` are the leading `m` rows before the call.

Missing: no equations (`m = 0`), see `C62_gelqs_refuted`; tree mode with a `T` that was not zero before the factorization,
as in `C36_gelqf_partial`. -/
theorem C62_gelqs_partial (hdv : IsDiv dv) (hok : HMode.ok hm) (hnb : 0 < nb) (hib : 0 < ib) (hlda : m ≤ lda)
    (hldb : n ≤ ldb) (hmn : m ≤ n) (hm0 : m ≠ 0) {mem mem' mem1 mem2 : Buf × Nat → 𝕜} (hcl : TClean hm mem)
    (hf : Exec (qrEnv hm ib nb m n (m, n) lda (0, 0) 0) (zgelqf llkern hm ib nb m n) mem mem')
    (hr : FullColRank (uArr mem 0 lda m n)ᴴ)
    (hA1 : ∀ r c, r < m → c < n → mem1 (.usr 0, r + c * lda) = mem' (.usr 0, r + c * lda))
    (hT1 : ∀ x, mem1 (.usr 1, x) = mem' (.usr 1, x))
    (h : Exec (qrEnv hm ib nb m n (m, n) lda (n, nrhs) ldb) (zgelqs dv hm ib nb m n nrhs) mem1 mem2) {c : Nat}
    (hc : c < nrhs) : IsMinNorm (uArr mem 0 lda m n) (uCol mem1 ldb m c) (uCol mem2 ldb n c) := by
  have h0 : ¬ (m = 0 ∨ n = 0 ∨ nrhs = 0) := by omega
  obtain ⟨h1, -⟩ := gelqf_holds llkern_spec hok hnb hib (by omega) hlda hf
  obtain ⟨Q, q1, q2, q3⟩ := h1 hcl
  refine gelqs_holds hdv hok hnb hib hlda hldb h0 hmn q1 q2 (Matrix.ext fun r c => ?_) hr hA1 hT1 h hc
  rw [rmul_mul (Y := uArrL mem' 0 lda m n) (X := tril fun i j => mem' (.usr 0, i + j * lda)) (fun _ _ => rfl)]
  exact q3 r c r.2 c.2

/-- **C62**, refuted part.  With no equations at all (`m = 0`) the minimum norm solution is zero, but `plasma_zgelqs` returns
at once and leaves what was in `B` (compute/zgelqs.c:106-107); `plasma_zgels` stores the zeros. -/
theorem C62_gelqs_refuted {mem1 mem2 : Buf × Nat → 𝕜} (hn : 0 < n) (hb : mem1 (.usr 2, 0) ≠ 0)
    (h : Exec (qrEnv hm ib nb 0 n (0, n) lda (n, 1) ldb) (zgelqs dv hm ib nb 0 n 1) mem1 mem2) :
    ¬ IsMinNorm (uArr mem1 0 lda 0 n) (uCol mem1 ldb 0 0) (uCol mem2 ldb n 0) := by
  unfold zgelqs at h
  dsimp only at h
  rw [if_pos (Or.inl rfl)] at h
  rw [Exec.nil h]
  rintro ⟨-, h2⟩
  have h3 := h2 0 (funext fun i => i.elim0)
  rw [sum_eq_zero (f := fun i : Fin n => ‖(0 : Fin n → 𝕜) i‖ ^ 2) fun i _ => by simp] at h3
  have h4 : ‖uCol mem1 ldb n 0 ⟨0, hn⟩‖ ^ 2 ≤ ∑ i, ‖uCol mem1 ldb n 0 i‖ ^ 2 :=
    single_le_sum (f := fun i => ‖uCol mem1 ldb n 0 i‖ ^ 2) (fun i _ => sq_nonneg _) (mem_univ _)
  have h5 : ‖uCol mem1 ldb n 0 ⟨0, hn⟩‖ ^ 2 = 0 := le_antisymm (h4.trans h3) (sq_nonneg _)
  rw [pow_eq_zero_iff (by decide), norm_eq_zero] at h5
  apply hb
  have : uCol mem1 ldb n 0 ⟨0, hn⟩ = mem1 (.usr 2, 0) := by
    show mem1 (.usr 2, 0 + 0 * ldb) = _
    rw [Nat.zero_mul]
  rw [← this, h5]

/-- **C62**, part: only `B` changes, in particular neither the factors nor `T`, so that they can be used again. -/
theorem C62_geqrs_frame (hok : HMode.ok hm) (hnb : 0 < nb) (hib : 0 < ib) (hlda : m ≤ lda)
    (hldb : m ≤ ldb) (hmn : n ≤ m) {mem1 mem2 : Buf × Nat → 𝕜}
    (h : Exec (qrEnv hm ib nb m n (m, n) lda (m, nrhs) ldb) (zgeqrs dv hm ib nb m n nrhs) mem1 mem2) :
    ∀ k x, k ≠ 2 ∨ (∀ i j, i < m → j < nrhs → x ≠ i + j * ldb) → mem2 (.usr k, x) = mem1 (.usr k, x) := by
  unfold zgeqrs at h
  dsimp only at h
  by_cases h0 : m = 0 ∨ n = 0 ∨ nrhs = 0
  · rw [if_pos h0] at h
    rw [Exec.nil h]
    exact fun _ _ _ => rfl
  · rw [if_neg h0] at h
    obtain ⟨hg, hw⟩ := geqrs_gw (dv := dv) (lda := lda) (ldb := ldb) (ib := ib) hok hnb h0 hmn
    exact qrs_frame hnb hib hlda hldb hg hw h

/-- **C62**, part: only `B` changes. -/
theorem C62_gelqs_frame (hok : HMode.ok hm) (hnb : 0 < nb) (hib : 0 < ib) (hlda : m ≤ lda)
    (hldb : n ≤ ldb) (hmn : m ≤ n) {mem1 mem2 : Buf × Nat → 𝕜}
    (h : Exec (qrEnv hm ib nb m n (m, n) lda (n, nrhs) ldb) (zgelqs dv hm ib nb m n nrhs) mem1 mem2) :
    ∀ k x, k ≠ 2 ∨ (∀ i j, i < n → j < nrhs → x ≠ i + j * ldb) → mem2 (.usr k, x) = mem1 (.usr k, x) := by
  unfold zgelqs at h
  dsimp only at h
  by_cases h0 : m = 0 ∨ n = 0 ∨ nrhs = 0
  · rw [if_pos h0] at h
    rw [Exec.nil h]
    exact fun _ _ _ => rfl
  · rw [if_neg h0] at h
    obtain ⟨hg, hw⟩ := gelqs_gw (dv := dv) (lda := lda) (ldb := ldb) (ib := ib) hok hnb h0 hmn
    exact qrs_frame hnb hib hlda hldb hg hw h

end

/-- A factorization and a solve with a matrix of full column rank. -/
example : ∃ mem mem' mem2 : Buf × Nat → ℂ, TClean (some 4) mem ∧ FullColRank (uArr mem 0 4 4 2) ∧
    Exec (qrEnv (some 4) 2 3 4 2 (4, 2) 4 (0, 0) 0) (zgeqrf lkern (some 4) 2 3 4 2) mem mem' ∧
    Exec (qrEnv (some 4) 2 3 4 2 (4, 2) 4 (4, 5) 4) (zgeqrs (fun a b => a / b) (some 4) 2 3 4 2 5) mem' mem2 := by
  refine ⟨fun x : Buf × Nat => if x.1 ≠ .usr 1 ∧ x.2 % 4 = x.2 / 4 then (1 : ℂ) else 0, ?_⟩
  obtain ⟨mem', h⟩ := geqrf_exists (hm := some 4) (ib := 2) (nb := 3) (m := 4) (n := 2) (lda := 4) (lkern_spec (𝕜 := ℂ))
    (by intro c h; cases h; omega) (by omega) (by omega) (by omega)
    (fun x : Buf × Nat => if x.1 ≠ .usr 1 ∧ x.2 % 4 = x.2 / 4 then (1 : ℂ) else 0)
  obtain ⟨mem2, h2⟩ := geqrs_exists (dv := fun a b => a / b) (hm := some 4) (ib := 2) (nb := 3) (m := 4) (n := 2) (nrhs := 5)
    (lda := 4) (ldb := 4) (by intro c h; cases h; omega) (by omega) (by omega) (by omega) (by omega) (by omega) mem'
  refine ⟨mem', mem2, Or.inr fun x => if_neg fun h => h.1 rfl, ?_, h, h2⟩
  intro y h
  funext j
  have := congrFun h (Fin.castLE (by omega) j)
  fin_cases j <;> simpa [uArr, mulVec, dotProduct, Fin.sum_univ_two] using this

/-- A factorization and a solve with a matrix of full row rank. -/
example : ∃ mem mem' mem2 : Buf × Nat → ℂ, TClean (some 4) mem ∧ FullColRank (uArr mem 0 2 2 4)ᴴ ∧
    Exec (qrEnv (some 4) 2 3 2 4 (2, 4) 2 (0, 0) 0) (zgelqf llkern (some 4) 2 3 2 4) mem mem' ∧
    Exec (qrEnv (some 4) 2 3 2 4 (2, 4) 2 (4, 5) 4) (zgelqs (fun a b => a / b) (some 4) 2 3 2 4 5) mem' mem2 := by
  refine ⟨fun x : Buf × Nat => if x.1 ≠ .usr 1 ∧ x.2 % 2 = x.2 / 2 then (1 : ℂ) else 0, ?_⟩
  obtain ⟨mem', h⟩ := gelqf_exists (hm := some 4) (ib := 2) (nb := 3) (m := 2) (n := 4) (lda := 2) (llkern_spec (𝕜 := ℂ))
    (by intro c h; cases h; omega) (by omega) (by omega) (by omega)
    (fun x : Buf × Nat => if x.1 ≠ .usr 1 ∧ x.2 % 2 = x.2 / 2 then (1 : ℂ) else 0)
  obtain ⟨mem2, h2⟩ := gelqs_exists (dv := fun a b => a / b) (hm := some 4) (ib := 2) (nb := 3) (m := 2) (n := 4) (nrhs := 5)
    (lda := 2) (ldb := 4) (by intro c h; cases h; omega) (by omega) (by omega) (by omega) (by omega) (by omega) mem'
  refine ⟨mem', mem2, Or.inr fun x => if_neg fun h => h.1 rfl, ?_, h, h2⟩
  intro y h
  funext j
  have := congrFun h (Fin.castLE (by omega) j)
  fin_cases j <;> simpa [uArr, mulVec, dotProduct, Fin.sum_univ_two] using this

/-- The case without equations. -/
example : ∃ mem mem2 : Buf × Nat → ℂ, mem (.usr 2, 0) ≠ 0 ∧
    Exec (qrEnv none 1 1 0 2 (0, 2) 1 (2, 1) 2) (zgelqs (fun a b => a / b) none 1 1 0 2 1) mem mem2 := by
  obtain ⟨mem2, h2⟩ := gelqs_exists (dv := fun a b => a / b) (hm := none) (ib := 1) (nb := 1) (m := 0) (n := 2) (nrhs := 1)
    (lda := 1) (ldb := 2) (by intro c h; cases h) (by omega) (by omega) (by omega) (by omega) (by omega) (fun _ => (1 : ℂ))
  exact ⟨_, mem2, one_ne_zero, h2⟩

end Verif.Props

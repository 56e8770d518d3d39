/-
C12, C13: triangular solve, end to end.
-/
import Verif.Trsm
import Verif.Props.Rank

namespace Verif.Props

open Verif.Layout Verif.Tile Finset

universe v

/-- Dimensions of `pA` and `pB` in `plasma_ztrsm` and `plasma_ztrmm`
(compute/ztrsm.c:148-153, 176-187; compute/ztrmm.c). -/
def trDims (sd : Side) (m n : Nat) : Nat → Nat × Nat
  | 0 => (trN sd m n, trN sd m n)
  | 1 => (m, n)
  | _ => (0, 0)

/-- The leading-dimension checks (compute/ztrsm.c:154-161). -/
def TrLd (sd : Side) (m n lda ldb : Nat) : Prop := max 1 (trN sd m n) ≤ lda ∧ max 1 m ≤ ldb

theorem tr_ld {sd : Side} {m n lda ldb : Nat} (h : TrLd sd m n lda ldb) :
    ∀ a, (trDims sd m n a).1 ≤ ld2 lda ldb a := by
  obtain ⟨h1, h2⟩ := h
  intro a
  match a with
  | 0 => simp only [trDims, ld2]; omega
  | 1 => simp only [trDims, ld2]; omega
  | k+2 => simp [trDims]

section
variable {α : Type v} [CommRing α] [StarRing α] [DecidableEq α]

/-- `plasma_omp_ztrsm` (compute/ztrsm.c:292-362) with legal arguments. -/
def ompZtrsm {M : Type} (dv : α → α → α) (sd : Side) (u : Uplo) (t : Trans) (d : Diag) (alpha : α)
    (A B : TMat M) : List (TTask (M × Nat × Nat) α) :=
  if B.d.m = 0 ∨ B.d.n = 0 then [] else pztrsm dv sd u t d alpha A B

/-- Tasks created by `plasma_ztrsm` (compute/ztrsm.c:163-226) with legal arguments. -/
def ztrsm (nb : Nat) (dv : α → α → α) (sd : Side) (u : Uplo) (t : Trans) (d : Diag) (m n : Nat)
    (alpha : α) : List (TTask (Buf × Nat × Nat) α) :=
  if m = 0 ∨ n = 0 then []
  else driver nb (trDims sd m n) [0, 1]
    (ompZtrsm dv sd u t d alpha (tMat nb (trDims sd m n) 0) (tMat nb (trDims sd m n) 1)) [1]

theorem ompZtrsm_good {nb : Nat} (hnb : 0 < nb) {dv : α → α → α} {sd : Side} {u : Uplo} {t : Trans}
    {d : Diag} {m n : Nat} {ld : Nat → Nat} {alpha : α} :
    Good (evalid (drvEnv nb (trDims sd m n) ld))
      (ompZtrsm dv sd u t d alpha (tMat nb (trDims sd m n) 0) (tMat nb (trDims sd m n) 1)) :=
  Good.ite (fun _ => Good.nil) (fun _ => pztrsm_good ((fits_t hnb 0).mono fun _ _ _ => trivial)
    (fits_t hnb 1) (show _ = m from rfl) (show _ = n from rfl) le_rfl le_rfl)

theorem ompZtrsm_onTiles {nb : Nat} (hnb : 0 < nb) {dv : α → α → α} {sd : Side} {u : Uplo} {t : Trans}
    {d : Diag} {m n : Nat} {alpha : α} :
    OnTiles (ompZtrsm dv sd u t d alpha (tMat nb (trDims sd m n) 0) (tMat nb (trDims sd m n) 1)) :=
  Writes.ite (fun _ => Writes.nil)
    (fun _ => (pztrsm_writes (al_t hnb 1) rfl rfl).mono fun _ hx => ⟨1, hx⟩)

end

variable {α : Type v} [Field α] [StarRing α] [DecidableEq α]

/-- The stored array at `pA`. -/
def arr (mem : Buf × Nat → α) (k ld : Nat) : Nat → Nat → α := fun i j => mem (.usr k, i + j * ld)

/-- The triangle of `A` described by `u` and `d`; `PlasmaNonUnit` needs an invertible
diagonal. -/
def NonSing (d : Diag) (N : Nat) (X : Nat → Nat → α) : Prop := d = .nonUnit → ∀ i, i < N → X i i ≠ 0

omit [StarRing α] [DecidableEq α] in
theorem NonSing.tr {u : Uplo} {d : Diag} {N : Nat} {X Y : Nat → Nat → α} (h : NonSing d N X)
    (hXY : ∀ i j, i < N → j < N → Y i j = X i j) : ∀ i, i < N → trE u d Y i i ≠ 0 := by
  intro i hi
  unfold trE
  rw [if_pos rfl]
  cases d
  · simp only [reduceCtorEq, if_false]; rw [hXY i i hi hi]; exact h rfl i hi
  · simp

omit [DecidableEq α] in
theorem op_tr_congr {u : Uplo} {t : Trans} {d : Diag} {N : Nat} {X Y : Nat → Nat → α}
    (hXY : ∀ i j, i < N → j < N → Y i j = X i j) {i j : Nat} (hi : i < N) (hj : j < N) :
    opE t (trE u d Y) i j = opE t (trE u d X) i j :=
  op_trE_congr hi hj fun i j h => hXY i j h.1 h.2.1

/-- **C12.** For `alpha ≠ 0` and an invertible triangular matrix, every execution of
`plasma_ztrsm` overwrites `pB` with the `X` satisfying `op(A) X = alpha B` (Left) or
`X op(A) = alpha B` (Right), where the entries of `A` outside the selected triangle are
taken for zeros and, for `PlasmaUnit`, its diagonal for ones (`trE`); `pA` and all padding
keep their contents. -/
theorem C12_trsm {nb : Nat} (hnb : 0 < nb) {dv : α → α → α} (hdv : IsDiv dv) (sd : Side) (u : Uplo)
    (t : Trans) (d : Diag) (m n lda ldb : Nat) (hl : TrLd sd m n lda ldb) (alpha : α) (ha : alpha ≠ 0)
    (mem mem' : Buf × Nat → α) (hns : NonSing d (trN sd m n) (arr mem 0 lda))
    (hx : Exec (drvEnv nb (trDims sd m n) (ld2 lda ldb)) (ztrsm nb dv sd u t d m n alpha) mem mem') :
    (∀ i j, i < m → j < n →
      (if sd = .left then
         ∑ l ∈ range m, opE t (trE u d (arr mem 0 lda)) i l * mem' (.usr 1, l + j * ldb)
       else
         ∑ l ∈ range n, mem' (.usr 1, i + l * ldb) * opE t (trE u d (arr mem 0 lda)) l j) =
        alpha * mem (.usr 1, i + j * ldb)) ∧
    (∀ x, mem' (.usr 0, x) = mem (.usr 0, x)) ∧
    (∀ x, (∀ i j, i < m → j < n → x ≠ i + j * ldb) → mem' (.usr 1, x) = mem (.usr 1, x)) := by
  unfold ztrsm at hx
  split at hx
  · rename_i hq
    rw [hx.nil]
    refine ⟨fun i j hi hj => ?_, fun _ => rfl, fun _ _ => rfl⟩
    omega
  · rename_i hq
    obtain ⟨s, hin, hout, h3, h4⟩ := driver_correct hnb (tr_ld hl) (by simp) (by simp)
      (ompZtrsm_good hnb) (ompZtrsm_onTiles hnb) hx
    refine ⟨fun i j hi hj => ?_, h3 0 (by simp), fun x hx => h4 1 x hx⟩
    have homp : ompZtrsm dv sd u t d alpha (tMat nb (trDims sd m n) 0) (tMat nb (trDims sd m n) 1) =
        pztrsm dv sd u t d alpha (tMat nb (trDims sd m n) 0) (tMat nb (trDims sd m n) 1) := by
      unfold ompZtrsm; rw [if_neg]; exact hq
    have hA : ∀ i j, i < trN sd m n → j < trN sd m n →
        (tMat nb (trDims sd m n) 0).el s i j = arr mem 0 lda i j := hin 0 (by simp)
    have hB := hin 1 (by simp)
    have ho := hout 1 (by simp)
    simp only [ld2, trDims] at hB ho
    have key := pztrsm_el (u := u) (t := t) (d := d) (sd := sd) hdv
      (al_t (dims := trDims sd m n) hnb 0) (al_t (dims := trDims sd m n) hnb 1)
      (by simp [tMat, TMat.full]) (show _ = m from rfl) (show _ = n from rfl) ha s (hns.tr hA)
    rw [← homp] at key
    cases sd
    · simp only [trN, trP, trT, trEl, if_true] at key hA ⊢
      rw [← hB i j hi hj, ← key i j hi hj]
      refine Finset.sum_congr rfl fun l hl => ?_
      rw [mem_range] at hl
      rw [ho l j hl hj, op_tr_congr hA hi hl]
    · simp only [trN, trP, trT, trEl, reduceCtorEq, if_false] at key hA ⊢
      rw [← hB i j hi hj, ← key j i hj hi]
      refine Finset.sum_congr rfl fun l hl => ?_
      rw [mem_range] at hl
      rw [ho i l hi hl, op_tr_congr hA hl hj, mul_comm]

/-- **C12, the other triangle.** The solution does not depend on what `pA` holds outside
the selected triangle (nor, for `PlasmaUnit`, on its diagonal). -/
theorem C12_other_triangle {nb : Nat} (hnb : 0 < nb) {dv : α → α → α} (hdv : IsDiv dv) (sd : Side) (u : Uplo)
    (t : Trans) (d : Diag) (m n lda ldb : Nat) (hl : TrLd sd m n lda ldb) (alpha : α) (ha : alpha ≠ 0)
    (mem1 mem2 mem1' mem2' : Buf × Nat → α) (hns : NonSing d (trN sd m n) (arr mem1 0 lda))
    (hA : ∀ i j, inTri u i j → (d = .unit → i ≠ j) → arr mem1 0 lda i j = arr mem2 0 lda i j)
    (hB : ∀ x, mem1 (.usr 1, x) = mem2 (.usr 1, x))
    (hx1 : Exec (drvEnv nb (trDims sd m n) (ld2 lda ldb)) (ztrsm nb dv sd u t d m n alpha) mem1 mem1')
    (hx2 : Exec (drvEnv nb (trDims sd m n) (ld2 lda ldb)) (ztrsm nb dv sd u t d m n alpha) mem2 mem2') :
    ∀ x, mem1' (.usr 1, x) = mem2' (.usr 1, x) := by
  have hns2 : NonSing d (trN sd m n) (arr mem2 0 lda) := by
    intro hd i hi
    rw [← hA i i (by unfold inTri; cases u <;> simp) (by simp [hd])]
    exact hns hd i hi
  obtain ⟨h1, -, h2⟩ := C12_trsm hnb hdv sd u t d m n lda ldb hl alpha ha mem1 mem1' hns hx1
  obtain ⟨h1', -, h2'⟩ := C12_trsm hnb hdv sd u t d m n lda ldb hl alpha ha mem2 mem2' hns2 hx2
  intro x
  by_cases hx' : ∃ i j, i < m ∧ j < n ∧ x = i + j * ldb
  · obtain ⟨i, j, hi, hj, rfl⟩ := hx'
    have he : ∀ i j, opE t (trE u d (arr mem2 0 lda)) i j = opE t (trE u d (arr mem1 0 lda)) i j :=
      fun i j => op_trE_congr (n := i + j + 1) (by omega) (by omega)
        fun i j h => (hA i j h.2.2.1 h.2.2.2).symm
    have hdd : ∀ i, i < trN sd m n → opE t (trE u d (arr mem1 0 lda)) i i ≠ 0 := by
      intro i hi
      have := hns.tr (u := u) (fun _ _ _ _ => rfl) i hi
      cases t <;> simpa [opE] using this
    cases sd
    · simp only [if_true, trN] at h1 h1' hdd
      refine tri_unique (low := opLow u t) (N := m) (T := opE t (trE u d (arr mem1 0 lda)))
        (x := fun l => mem1' (.usr 1, l + j * ldb)) (y := fun l => mem2' (.usr 1, l + j * ldb))
        hdd (fun i l _ _ h => op_tri_zero h) (fun i hi => ?_) i hi
      rw [h1 i j hi hj, hB, ← h1' i j hi hj]
      simp only [he]
    · simp only [if_false, reduceCtorEq, trN] at h1 h1' hdd
      refine tri_unique (low := !opLow u t) (N := n) (T := fun r l => opE t (trE u d (arr mem1 0 lda)) l r)
        (x := fun l => mem1' (.usr 1, i + l * ldb)) (y := fun l => mem2' (.usr 1, i + l * ldb))
        hdd (fun i l _ _ h => op_tri_zero (by cases hh : opLow u t <;> simpa [hh] using h))
        (fun j hj => ?_) j hj
      simp only [mul_comm (opE t _ _ _)]
      rw [h1 i j hi hj, hB, ← h1' i j hi hj]
      simp only [he]
  · have hn : ∀ i j, i < m → j < n → x ≠ i + j * ldb := fun i j hi hj he => hx' ⟨i, j, hi, hj, he⟩
    rw [h2 x hn, h2' x hn, hB]

/-- **C13, partial.** With `alpha = 0`, every execution of `plasma_ztrsm` sets `pB` to
zero, provided the triangular matrix is invertible or the nest is one of the two
(Right, (Conj)Trans) that pass `alpha` to every solve.  Missing from the full claim: the
other nests with a singular matrix, where it is false (`C13_singular`), and "without
dividing by alpha", which is false for the two nests (`C13_divides_by_alpha`). -/
theorem C13_trsm_zero_partial {nb : Nat} (hnb : 0 < nb) {dv : α → α → α} (hdv : IsDiv dv) (sd : Side) (u : Uplo)
    (t : Trans) (d : Diag) (m n lda ldb : Nat) (hl : TrLd sd m n lda ldb)
    (mem mem' : Buf × Nat → α)
    (hns : (sd = .right ∧ t ≠ .noTrans) ∨ NonSing d (trN sd m n) (arr mem 0 lda))
    (hx : Exec (drvEnv nb (trDims sd m n) (ld2 lda ldb)) (ztrsm nb dv sd u t d m n 0) mem mem') :
    (∀ i j, i < m → j < n → mem' (.usr 1, i + j * ldb) = 0) ∧
    (∀ x, mem' (.usr 0, x) = mem (.usr 0, x)) ∧
    (∀ x, (∀ i j, i < m → j < n → x ≠ i + j * ldb) → mem' (.usr 1, x) = mem (.usr 1, x)) := by
  unfold ztrsm at hx
  split at hx
  · rename_i hq
    rw [hx.nil]
    refine ⟨fun i j hi hj => ?_, fun _ => rfl, fun _ _ => rfl⟩
    omega
  · rename_i hq
    obtain ⟨s, hin, hout, h3, h4⟩ := driver_correct hnb (tr_ld hl) (by simp) (by simp)
      (ompZtrsm_good hnb) (ompZtrsm_onTiles hnb) hx
    refine ⟨fun i j hi hj => ?_, h3 0 (by simp), fun x hx => h4 1 x hx⟩
    have homp : ompZtrsm dv sd u t d 0 (tMat nb (trDims sd m n) 0) (tMat nb (trDims sd m n) 1) =
        pztrsm dv sd u t d 0 (tMat nb (trDims sd m n) 0) (tMat nb (trDims sd m n) 1) := by
      unfold ompZtrsm; rw [if_neg]; exact hq
    have hA : ∀ i j, i < trN sd m n → j < trN sd m n →
        (tMat nb (trDims sd m n) 0).el s i j = arr mem 0 lda i j := hin 0 (by simp)
    have ho := hout 1 (by simp)
    simp only [ld2, trDims] at ho
    have key := pztrsm_zero (u := u) (t := t) (d := d) (sd := sd) hdv
      (al_t (dims := trDims sd m n) hnb 0) (al_t (dims := trDims sd m n) hnb 1)
      (by simp [tMat, TMat.full]) (show _ = m from rfl) (show _ = n from rfl) s
      (hns.imp id fun h => h.tr hA)
    rw [← homp] at key
    rw [ho i j hi hj]
    cases sd
    · exact key i j hi hj
    · exact key j i hj hi

/-- **C13 is false for singular matrices.** Two tiles of size one, Left, Lower, NoTrans,
NonUnit, `A = diag(1, 0)`: with `alpha = 0` the second element of `B` becomes the quotient
`0 / 0` (a NaN in the code) instead of zero, because only the first solve is given
`alpha`. -/
theorem C13_singular {dv : α → α → α} (mem mem' : Buf × Nat → α)
    (hA : mem (.usr 0, 3) = 0)
    (hx : Exec (drvEnv 1 (trDims .left 2 1) (ld2 2 2)) (ztrsm 1 dv .left .lower .noTrans .nonUnit 2 1 0)
      mem mem') :
    mem' (.usr 1, 1) = dv 0 0 := by
  unfold ztrsm at hx
  rw [if_neg (by decide)] at hx
  obtain ⟨s, hin, hout, -, -⟩ := driver_correct (by decide) (tr_ld (by simp [TrLd, trN])) (by simp) (by simp)
    (ompZtrsm_good (by decide)) (ompZtrsm_onTiles (by decide)) hx
  have h1 := hout 1 (by simp) 1 0 (by decide) (by decide)
  have h2 := hin 0 (by simp) 1 1 (by decide) (by decide)
  simp only [ld2] at h1 h2
  rw [show (1 + 0 * 2 : Nat) = 1 from rfl] at h1
  rw [show (1 + 1 * 2 : Nat) = 3 from rfl, hA] at h2
  rw [h1]
  have homp : ompZtrsm dv .left .lower .noTrans .nonUnit 0 (tMat 1 (trDims .left 2 1) 0)
      (tMat 1 (trDims .left 2 1) 1) =
      [coreTrsm dv .left .lower .noTrans .nonUnit 1 1 0 (Buf.til 0, 0, 0) (Buf.til 1, 0, 0),
       coreGemm .noTrans .noTrans 1 1 1 (-1) (Buf.til 0, 1, 0) (Buf.til 1, 0, 0) 0 (Buf.til 1, 1, 0),
       coreTrsm dv .left .lower .noTrans .nonUnit 1 1 1 (Buf.til 0, 1, 1) (Buf.til 1, 1, 0)] := rfl
  rw [homp]
  have hb : box 1 1 0 0 := ⟨by decide, by decide⟩
  have e1 : (tMat 1 (trDims .left 2 1) 1).at' (1 / 1) (0 / 1) = (Buf.til 1, 1, 0) := rfl
  simp only [texec_cons, texec_nil]
  set s1 := (coreTrsm dv .left .lower .noTrans .nonUnit 1 1 (0:α) (Buf.til 0, 0, 0) (Buf.til 1, 0, 0)).run s
    with hs1
  have v1 : s1 (Buf.til 1, 0, 0) 0 0 = 0 := by
    rw [hs1, coreTrsm_run _ hb]; simp [trsmK]
  set s2 := (coreGemm .noTrans .noTrans 1 1 1 (-1 : α) (Buf.til 0, 1, 0) (Buf.til 1, 0, 0) 0
    (Buf.til 1, 1, 0)).run s1 with hs2
  have v2 : s2 (Buf.til 1, 1, 0) 0 0 = 0 := by
    rw [hs2, gemm_run _ hb]; simp [opE, v1]
  have v3 : s2 (Buf.til 0, 1, 1) = s (Buf.til 0, 1, 1) := by
    rw [hs2, hs1]; unfold coreGemm coreTrsm
    rw [op2_ne _ (by simp), op1_ne _ (by simp)]
  have h2' : s (Buf.til 0, 1, 1) 0 0 = 0 := h2
  change (coreTrsm dv .left .lower .noTrans .nonUnit 1 1 (1:α) (Buf.til 0, 1, 1) (Buf.til 1, 1, 0)).run s2
    (Buf.til 1, 1, 0) 0 0 = _
  rw [coreTrsm_run _ hb]
  simp only [trsmK, one_ne_zero, if_false, if_true, tsolve, opLow, decide_true, beq_self_eq_true]
  rw [lsolve_eq]
  simp [v2, v3, opE, trE, h2']

/-- **C13, "without dividing by alpha", is false.** In the two nests for (Conj)Trans from
the right, the tasks created for a `B` of more than one tile column use the quotient
`-1 / alpha`, also for `alpha = 0` (compute/pztrsm.c:238, 301). -/
theorem C13_divides_by_alpha {M : Type} {dv : α → α → α} {u : Uplo} {t : Trans} (ht : t ≠ .noTrans) (d : Diag)
    {A B : TMat M} (hm : 0 < B.d.mt) (hn : 1 < B.d.nt) :
    ∃ m n k a b c, coreGemm .noTrans t m n k (dv (-1) 0) a b 1 c ∈ pztrsm dv .right u t d (0 : α) A B := by
  unfold pztrsm
  simp only [reduceCtorEq, if_false, if_neg ht]
  cases u
  · simp only [if_true]
    refine ⟨_, _, _, _, _, _, List.mem_flatMap.mpr ⟨0, by simp; omega, List.mem_flatMap.mpr ⟨0, by simpa using hm,
      List.mem_cons_of_mem _ (List.mem_map.mpr ⟨1, by rw [mem_span]; omega, rfl⟩)⟩⟩⟩
  · simp only [reduceCtorEq, if_false]
    refine ⟨_, _, _, _, _, _, List.mem_flatMap.mpr ⟨0, by simp; omega, List.mem_flatMap.mpr ⟨0, by simpa using hm,
      List.mem_cons_of_mem _ (List.mem_map.mpr ⟨1, by rw [mem_span]; omega, rfl⟩)⟩⟩⟩

/-! ### Cases meeting the hypotheses -/

/-- Rational division with a marker for division by zero. -/
def qdv (x y : ℚ) : ℚ := if y = 0 then 7 else x / y

theorem qdv_isDiv : IsDiv qdv := ⟨fun x y hy => by simp [qdv, hy]⟩

theorem ztrsm_exists {nb : Nat} (hnb : 0 < nb) (dv : α → α → α) (sd : Side) (u : Uplo) (t : Trans) (d : Diag)
    {m n lda ldb : Nat} (hm : 0 < m) (hn : 0 < n) (hl : TrLd sd m n lda ldb) (alpha : α) (mem : Buf × Nat → α) :
    ∃ mem', Exec (drvEnv nb (trDims sd m n) (ld2 lda ldb)) (ztrsm nb dv sd u t d m n alpha) mem mem' := by
  unfold ztrsm
  rw [if_neg (by omega)]
  exact driver_exists hnb (tr_ld hl) (ompZtrsm_good hnb) mem

/-- 5×3 right-hand sides, tiles of size 2, a matrix of ones: the hypotheses hold and an
execution exists. -/
example : IsDiv qdv ∧ TrLd .right 5 3 4 6 ∧ NonSing .nonUnit (trN .right 5 3) (arr (fun _ => (1 : ℚ)) 0 4) ∧
    ∃ mem', Exec (drvEnv 2 (trDims .right 5 3) (ld2 4 6)) (ztrsm 2 qdv .right .upper .trans .nonUnit 5 3 2)
      (fun _ => 1) mem' :=
  ⟨qdv_isDiv, by simp [TrLd, trN], fun _ i _ => by simp [arr],
    ztrsm_exists (by decide) _ _ _ _ _ (by decide) (by decide) (by simp [TrLd, trN]) _ _⟩

/-- `C13_singular` applies: with `A = 0` and `alpha = 0` the result is not zero. -/
example : ∃ mem', Exec (drvEnv 1 (trDims .left 2 1) (ld2 2 2))
    (ztrsm 1 qdv .left .lower .noTrans .nonUnit 2 1 0) (fun _ => 0) mem' ∧ mem' (.usr 1, 1) ≠ 0 := by
  obtain ⟨mem', h⟩ := ztrsm_exists (nb := 1) (lda := 2) (ldb := 2) (by decide) qdv .left .lower .noTrans .nonUnit
    (m := 2) (n := 1) (by decide) (by decide) (by simp [TrLd, trN]) 0 (fun _ => 0)
  refine ⟨mem', h, ?_⟩
  rw [C13_singular _ _ rfl h]; simp [qdv]

end Verif.Props

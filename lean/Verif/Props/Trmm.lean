/-
C14: triangular multiply, end to end.
-/
import Verif.Trmm
import Verif.Props.Trsm

namespace Verif.Props

open Verif.Layout Verif.Tile Finset

universe v

variable {α : Type v} [CommRing α] [StarRing α] [DecidableEq α]

/-- `plasma_omp_ztrmm` (compute/ztrmm.c:294-366) with legal arguments. -/
def ompZtrmm {M : Type} (sd : Side) (u : Uplo) (t : Trans) (d : Diag) (alpha : α)
    (A B : TMat M) : List (TTask (M × Nat × Nat) α) :=
  if A.d.m = 0 ∨ A.d.n = 0 ∨ B.d.m = 0 ∨ B.d.n = 0 then []
  else if alpha = 0 then pzlaset none 0 0 B
  else pztrmm sd u t d alpha A B

/-- `A` is stored in a triangular descriptor, `B` in a general one
(compute/ztrmm.c:172-187). -/
def trmmSt (u : Uplo) : Nat → Stor
  | 0 => some u
  | _ => none

/-- Tasks created by `plasma_ztrmm` (compute/ztrmm.c:160-226) with legal arguments. -/
def ztrmm (nb : Nat) (sd : Side) (u : Uplo) (t : Trans) (d : Diag) (m n : Nat) (alpha : α) :
    List (TTask (Buf × Nat × Nat) α) :=
  if min m n = 0 then []
  else driverK nb (trDims sd m n) (trmmSt u) [0, 1]
    (ompZtrmm sd u t d alpha (tMat nb (trDims sd m n) 0) (tMat nb (trDims sd m n) 1)) [1]

theorem trmm_sq {sd : Side} {u : Uplo} {m n : Nat} (k : Nat) :
    stSq (trmmSt u k) (trDims sd m n k).1 (trDims sd m n k).2 := by
  match k with
  | 0 => exact Or.inr rfl
  | k+1 => exact Or.inl rfl

theorem ompZtrmm_good {nb : Nat} (hnb : 0 < nb) {sd : Side} {u : Uplo} {t : Trans}
    {d : Diag} {m n : Nat} {ld : Nat → Nat} {alpha : α} :
    Good (evalid (drvEnvK nb (trDims sd m n) ld (trmmSt u)))
      (ompZtrmm sd u t d alpha (tMat nb (trDims sd m n) 0) (tMat nb (trDims sd m n) 1)) :=
  Good.ite (fun _ => Good.nil) (fun _ => Good.ite
    (fun _ => pzlaset_good ((fitsK_gen hnb rfl).mono fun _ _ _ => trivial))
    (fun _ => pztrmm_good (fitsK_t (st := trmmSt u) hnb 0) (fitsK_gen hnb rfl) rfl rfl rfl rfl))

theorem ompZtrmm_onTiles {nb : Nat} (hnb : 0 < nb) {sd : Side} {u : Uplo} {t : Trans}
    {d : Diag} {m n : Nat} {alpha : α} :
    OnTiles (ompZtrmm sd u t d alpha (tMat nb (trDims sd m n) 0) (tMat nb (trDims sd m n) 1)) :=
  Writes.ite (fun _ => Writes.nil) (fun _ => Writes.ite
    (fun _ => (pzlaset_writes (al_t hnb 1)).mono fun _ hx => ⟨1, hx⟩)
    (fun _ => (pztrmm_writes (al_t hnb 0) (al_t hnb 1) rfl rfl rfl rfl).mono fun _ hx => ⟨1, hx⟩))

/-- **C14.** Every execution of `plasma_ztrmm` overwrites `pB` with `alpha op(A) B` (Left)
or `alpha B op(A)` (Right), where the entries of `A` outside the selected triangle are
taken for zeros and, for `PlasmaUnit`, its diagonal for ones (`trE`: they are not read);
`pA` and all padding keep their contents. -/
theorem C14_trmm {nb : Nat} (hnb : 0 < nb) (sd : Side) (u : Uplo)
    (t : Trans) (d : Diag) (m n lda ldb : Nat) (hl : TrLd sd m n lda ldb) (alpha : α)
    (mem mem' : Buf × Nat → α)
    (hx : Exec (drvEnvK nb (trDims sd m n) (ld2 lda ldb) (trmmSt u)) (ztrmm nb sd u t d m n alpha) mem mem') :
    (∀ i j, i < m → j < n → mem' (.usr 1, i + j * ldb) =
      if sd = .left then
         alpha * ∑ l ∈ range m, opE t (trE u d (arr mem 0 lda)) i l * mem (.usr 1, l + j * ldb)
       else
         alpha * ∑ l ∈ range n, mem (.usr 1, i + l * ldb) * opE t (trE u d (arr mem 0 lda)) l j) ∧
    (∀ x, mem' (.usr 0, x) = mem (.usr 0, x)) ∧
    (∀ x, (∀ i j, i < m → j < n → x ≠ i + j * ldb) → mem' (.usr 1, x) = mem (.usr 1, x)) := by
  unfold ztrmm at hx
  split at hx
  · rename_i hq
    rw [hx.nil]
    refine ⟨fun i j hi hj => ?_, fun _ => rfl, fun _ _ => rfl⟩
    omega
  · rename_i hq
    obtain ⟨s, hin, hout, h3, h4⟩ := driverK_correct hnb (tr_ld hl) (trmm_sq (u := u)) (by simp) (by simp)
      (ompZtrmm_good hnb) (ompZtrmm_onTiles hnb) hx
    refine ⟨fun i j hi hj => ?_, h3 0 (by simp), fun x hx => h4 1 x hx⟩
    have hA : ∀ i j, i < trN sd m n → j < trN sd m n → stOK (some u) (i / nb) (j / nb) →
        (tMat nb (trDims sd m n) 0).el s i j = arr mem 0 lda i j := hin 0 (by simp)
    have hB : ∀ i j, i < m → j < n → (tMat nb (trDims sd m n) 1).el s i j = mem (.usr 1, i + j * ldb) :=
      fun i j hi hj => hin 1 (by simp) i j hi hj trivial
    have ho := hout 1 (by simp) i j hi hj
    simp only [ld2, trmmSt, stOK, if_true] at ho
    rw [ho]
    unfold ompZtrmm
    rw [if_neg (show ¬ ((tMat nb (trDims sd m n) 0).d.m = 0 ∨ (tMat nb (trDims sd m n) 0).d.n = 0 ∨
        (tMat nb (trDims sd m n) 1).d.m = 0 ∨ (tMat nb (trDims sd m n) 1).d.n = 0) from
      show ¬ (trN sd m n = 0 ∨ trN sd m n = 0 ∨ m = 0 ∨ n = 0) by unfold trN; cases sd <;> simp <;> omega)]
    split
    · rename_i ha
      subst ha
      rw [pzlaset_el (al_t hnb 1) s hi hj]
      simp [stOK]
    · have hop : ∀ i j, i < trN sd m n → j < trN sd m n →
          opE t (trE u d ((tMat nb (trDims sd m n) 0).el s)) i j = opE t (trE u d (arr mem 0 lda)) i j := by
        intro i j hi hj
        refine op_trE_congr hi hj fun i j h => hA i j h.1 h.2.1 ?_
        obtain ⟨_, _, h, _⟩ := h
        cases u <;> simp only [stOK, inTri] at h ⊢ <;> exact Nat.div_le_div_right h
      have key := fun {r c} hr hc => pztrmm_el (u := u) (t := t) (d := d) (sd := sd) (alpha := alpha) (r := r) (c := c)
        (al_t (dims := trDims sd m n) hnb 0) (al_t (dims := trDims sd m n) hnb 1)
        (by simp [tMat, TMat.full]) (show _ = m from rfl) (show _ = n from rfl) rfl rfl s hr hc
      cases sd
      · simp only [trN, trP, trT, trEl, if_true] at key hA hop ⊢
        rw [key hi hj]
        congr 1
        refine Finset.sum_congr rfl fun l hl => ?_
        rw [mem_range] at hl
        rw [hop i l hi hl, hB l j hl hj]
      · simp only [trN, trP, trT, trEl, reduceCtorEq, if_false] at key hA hop ⊢
        rw [key hj hi]
        congr 1
        refine Finset.sum_congr rfl fun l hl => ?_
        rw [mem_range] at hl
        rw [hop l j hl hj, hB i l hi hl, mul_comm]

/-- **C14, the other triangle.** The result does not depend on what `pA` holds outside the
selected triangle (nor, for `PlasmaUnit`, on its diagonal). -/
theorem C14_other_triangle {nb : Nat} (hnb : 0 < nb) (sd : Side) (u : Uplo)
    (t : Trans) (d : Diag) (m n lda ldb : Nat) (hl : TrLd sd m n lda ldb) (alpha : α)
    (mem1 mem2 mem1' mem2' : Buf × Nat → α)
    (hA : ∀ i j, inTri u i j → (d = .unit → i ≠ j) → arr mem1 0 lda i j = arr mem2 0 lda i j)
    (hB : ∀ x, mem1 (.usr 1, x) = mem2 (.usr 1, x))
    (hx1 : Exec (drvEnvK nb (trDims sd m n) (ld2 lda ldb) (trmmSt u)) (ztrmm nb sd u t d m n alpha) mem1 mem1')
    (hx2 : Exec (drvEnvK nb (trDims sd m n) (ld2 lda ldb) (trmmSt u)) (ztrmm nb sd u t d m n alpha) mem2 mem2') :
    ∀ x, mem1' (.usr 1, x) = mem2' (.usr 1, x) := by
  obtain ⟨h1, -, h2⟩ := C14_trmm hnb sd u t d m n lda ldb hl alpha mem1 mem1' hx1
  obtain ⟨h1', -, h2'⟩ := C14_trmm hnb sd u t d m n lda ldb hl alpha mem2 mem2' hx2
  have he : ∀ i j, opE t (trE u d (arr mem2 0 lda)) i j = opE t (trE u d (arr mem1 0 lda)) i j :=
    fun i j => op_trE_congr (n := i + j + 1) (by omega) (by omega)
      fun i j h => (hA i j h.2.2.1 h.2.2.2).symm
  intro x
  by_cases hx' : ∃ i j, i < m ∧ j < n ∧ x = i + j * ldb
  · obtain ⟨i, j, hi, hj, rfl⟩ := hx'
    rw [h1 i j hi hj, h1' i j hi hj]
    simp only [he, hB]
  · have hn : ∀ i j, i < m → j < n → x ≠ i + j * ldb := fun i j hi hj he => hx' ⟨i, j, hi, hj, he⟩
    rw [h2 x hn, h2' x hn, hB]

/-- 5×3 matrix, tiles of size 2: the hypotheses hold and an execution exists. -/
example (mem : Buf × Nat → ℤ) : TrLd .right 5 3 4 6 ∧
    ∃ mem', Exec (drvEnvK 2 (trDims .right 5 3) (ld2 4 6) (trmmSt .lower))
      (ztrmm 2 .right .lower .trans .nonUnit 5 3 2) mem mem' := by
  refine ⟨by simp [TrLd, trN], ?_⟩
  exact driverK_exists (by decide) (tr_ld (by simp [TrLd, trN])) (trmm_sq (u := .lower)) (ompZtrmm_good (by decide)) _

end Verif.Props

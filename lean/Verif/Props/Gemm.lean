/-
C01, C02: matrix multiplication, end to end.
-/
import Verif.GemmProof
import Verif.Driver

namespace Verif.Props

open Verif.Layout Verif.Tile Finset

universe v

/-- Dimensions of `pA`, `pB`, `pC` (arrays 0, 1, 2) as set up by `plasma_zgemm`
(compute/zgemm.c:144-161,187-212). -/
def gemmDims (ta tb : Trans) (m n k : Nat) : Nat → Nat × Nat
  | 0 => if ta = .noTrans then (m, k) else (k, m)
  | 1 => if tb = .noTrans then (k, n) else (n, k)
  | 2 => (m, n)
  | _ => (0, 0)

/-- Leading dimensions of the three user arrays. -/
def ld3 (lda ldb ldc : Nat) : Nat → Nat
  | 0 => lda
  | 1 => ldb
  | 2 => ldc
  | _ => 0

variable {α : Type v} [CommRing α] [StarRing α] [DecidableEq α]

/-- Tasks created by `plasma_zgemm` with legal arguments (compute/zgemm.c:176-241): quick
return, translation of `pA`, `pB`, `pC`, `plasma_omp_zgemm`, translation back of `pC`.
`nb` is the tile size of the context. -/
def zgemm (nb : Nat) (ta tb : Trans) (m n k : Nat) (alpha beta : α) :
    List (TTask (Buf × Nat × Nat) α) :=
  if m = 0 ∨ n = 0 ∨ ((alpha = 0 ∨ k = 0) ∧ beta = 1) then []
  else driver nb (gemmDims ta tb m n k) [0, 1, 2]
    (ompZgemm ta tb alpha (tMat nb (gemmDims ta tb m n k) 0) (tMat nb (gemmDims ta tb m n k) 1) beta
      (tMat nb (gemmDims ta tb m n k) 2)) [2]

theorem gemm_shape {nb : Nat} {ta tb : Trans} {m n k : Nat} :
    GemmShape ta tb k (tMat nb (gemmDims ta tb m n k) 0) (tMat nb (gemmDims ta tb m n k) 1)
      (tMat nb (gemmDims ta tb m n k) 2) := by
  constructor <;> simp only [tMat, TMat.full, general, gemmDims] <;> split <;> rfl

theorem ompZgemm_good {nb : Nat} (hnb : 0 < nb) {ta tb : Trans} {m n k : Nat} {ld : Nat → Nat}
    {alpha beta : α} :
    Good (evalid (drvEnv nb (gemmDims ta tb m n k) ld))
      (ompZgemm ta tb alpha (tMat nb (gemmDims ta tb m n k) 0) (tMat nb (gemmDims ta tb m n k) 1) beta
      (tMat nb (gemmDims ta tb m n k) 2)) := by
  exact Good.ite (fun _ => Good.nil)
    (fun _ => pzgemm_good (fits_t hnb 0) (fits_t hnb 1) (fits_t hnb 2) gemm_shape)

theorem ompZgemm_onTiles {nb : Nat} (hnb : 0 < nb) {ta tb : Trans} {m n k : Nat} {alpha beta : α} :
    OnTiles (ompZgemm ta tb alpha (tMat nb (gemmDims ta tb m n k) 0) (tMat nb (gemmDims ta tb m n k) 1)
      beta (tMat nb (gemmDims ta tb m n k) 2)) := by
  exact Writes.ite (fun _ => Writes.nil)
    (fun _ => (pzgemm_writes (al_t hnb 0) gemm_shape).mono fun x hx => ⟨2, hx⟩)

/-- The leading-dimension checks of `plasma_zgemm` (compute/zgemm.c:163-174). -/
def GemmLd (ta tb : Trans) (m n k lda ldb ldc : Nat) : Prop :=
  max 1 (if ta = .noTrans then m else k) ≤ lda ∧ max 1 (if tb = .noTrans then k else n) ≤ ldb ∧
    max 1 m ≤ ldc

theorem gemm_ld {ta tb : Trans} {m n k lda ldb ldc : Nat} (h : GemmLd ta tb m n k lda ldb ldc) :
    ∀ a, (gemmDims ta tb m n k a).1 ≤ ld3 lda ldb ldc a := by
  obtain ⟨h1, h2, h3⟩ := h
  intro a
  match a with
  | 0 => simp only [gemmDims, ld3]; split at h1 <;> rename_i hh <;> simp only [hh, if_true, if_false] <;> omega
  | 1 => simp only [gemmDims, ld3]; split at h2 <;> rename_i hh <;> simp only [hh, if_true, if_false] <;> omega
  | 2 => simp only [gemmDims, ld3]; omega
  | k+3 => simp [gemmDims]

/-- **C01.** Whatever legal schedule the runtime picks and however task bodies are
interleaved, `plasma_zgemm` leaves `beta*C + alpha*op(A)*op(B)` in `pC`.  The entry
`(i, j)` of the result is stated directly over the user's column-major arrays. -/
theorem C01_gemm {nb : Nat} (hnb : 0 < nb) (ta tb : Trans) (m n k lda ldb ldc : Nat)
    (hl : GemmLd ta tb m n k lda ldb ldc) (alpha beta : α) (mem mem' : Buf × Nat → α)
    (h : Exec (drvEnv nb (gemmDims ta tb m n k) (ld3 lda ldb ldc))
      (zgemm nb ta tb m n k alpha beta) mem mem') :
    ∀ i j, i < m → j < n →
      mem' (.usr 2, i + j * ldc) = beta * mem (.usr 2, i + j * ldc) +
        alpha * ∑ l ∈ range k, opE ta (fun p q => mem (.usr 0, p + q * lda)) i l *
                              opE tb (fun p q => mem (.usr 1, p + q * ldb)) l j := by
  intro i j hi hj
  unfold zgemm at h
  split at h
  · rename_i hq
    have : mem' = mem := h.nil
    rw [this]
    rcases hq with hq | hq | ⟨hq | hq, hq'⟩
    · omega
    · omega
    · simp [hq, hq']
    · simp [hq, hq']
  · rename_i hq
    obtain ⟨s, hin, hout, -⟩ := driver_correct hnb (gemm_ld hl) (by simp) (by simp)
      (ompZgemm_good hnb) (ompZgemm_onTiles hnb) h
    have := hout 2 (by simp) i j hi hj
    simp only [ld3] at this
    rw [this]
    have homp : ompZgemm ta tb alpha (tMat nb (gemmDims ta tb m n k) 0)
        (tMat nb (gemmDims ta tb m n k) 1) beta (tMat nb (gemmDims ta tb m n k) 2) =
        pzgemm ta tb alpha (tMat nb (gemmDims ta tb m n k) 0)
        (tMat nb (gemmDims ta tb m n k) 1) beta (tMat nb (gemmDims ta tb m n k) 2) := by
      unfold ompZgemm
      dsimp only
      rw [if_neg]
      rw [(gemm_shape (nb := nb) (m := m) (n := n)).an]
      exact hq
    rw [homp, pzgemm_el (al_t hnb 0) (al_t hnb 1) (al_t hnb 2)
      gemm_shape (by simp [tMat, TMat.full]) (by simp [tMat, TMat.full]) _ hi hj]
    have hC := hin 2 (by simp) i j hi hj
    simp only [ld3] at hC
    rw [hC]
    congr 2
    apply Finset.sum_congr rfl
    intro l hl
    rw [mem_range] at hl
    have hA := hin 0 (by simp)
    have hB := hin 1 (by simp)
    congr 1
    · cases ta <;> simp only [opE] <;> rw [hA _ _ (by simpa [gemmDims] using by assumption)
        (by simpa [gemmDims] using by assumption)] <;> rfl
    · cases tb <;> simp only [opE] <;> rw [hB _ _ (by simpa [gemmDims] using by assumption)
        (by simpa [gemmDims] using by assumption)] <;> rfl

/-- **C02.** `plasma_zgemm` changes nothing of the user's memory except the `m × n`
entries of `pC`: the input arrays and the padding between columns of `pC` keep their
contents. -/
theorem C02_gemm_frame {nb : Nat} (hnb : 0 < nb) (ta tb : Trans) (m n k lda ldb ldc : Nat)
    (hl : GemmLd ta tb m n k lda ldb ldc) (alpha beta : α) (mem mem' : Buf × Nat → α)
    (h : Exec (drvEnv nb (gemmDims ta tb m n k) (ld3 lda ldb ldc))
      (zgemm nb ta tb m n k alpha beta) mem mem') :
    (∀ x, mem' (.usr 0, x) = mem (.usr 0, x)) ∧ (∀ x, mem' (.usr 1, x) = mem (.usr 1, x)) ∧
    (∀ x, (∀ i j, i < m → j < n → x ≠ i + j * ldc) → mem' (.usr 2, x) = mem (.usr 2, x)) := by
  unfold zgemm at h
  split at h
  · have : mem' = mem := h.nil
    rw [this]; simp
  · obtain ⟨s, -, -, h3, h4⟩ := driver_correct hnb (gemm_ld hl) (by simp) (by simp)
      (ompZgemm_good hnb) (ompZgemm_onTiles hnb) h
    exact ⟨h3 0 (by simp), h3 1 (by simp), h4 2⟩

/-- A call for which the hypotheses of C01/C02 hold and tasks really are created:
5×4 times 4×3 with tiles of size 2 and padding; some execution exists. -/
example (mem : Buf × Nat → ℤ) : GemmLd .noTrans .trans 5 3 4 7 8 9 ∧ ∃ mem',
    Exec (drvEnv 2 (gemmDims .noTrans .trans 5 3 4) (ld3 7 8 9)) (zgemm 2 .noTrans .trans 5 3 4 2 3)
      mem mem' :=
  ⟨by simp [GemmLd], driver_exists (by decide) (gemm_ld (by simp [GemmLd]))
    (ompZgemm_good (by decide)) mem⟩

end Verif.Props

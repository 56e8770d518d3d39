/-
C09, C10, C11: rank-k updates, rank-2k updates, symmetric/Hermitian multiply, end to end.
-/
import Verif.Symm
import Verif.Props.Gemm
import Mathlib.Data.Complex.Basic

namespace Verif.Props

open Verif.Layout Verif.Tile Finset

universe v

/-- Dimensions of the operands of a rank-k or rank-2k update: `op`-shaped arrays at the
positions in `ops`, the `n × n` result at position `res` (compute/zsyrk.c:121-167,
compute/zsyr2k.c:134-196). -/
def rkDims (t : Trans) (n k res : Nat) : Nat → Nat × Nat := fun a =>
  if a < res then (if t = .noTrans then (n, k) else (k, n)) else if a = res then (n, n) else (0, 0)

/-- Leading dimensions of two arrays. -/
def ld2 (lda ldc : Nat) : Nat → Nat
  | 0 => lda
  | 1 => ldc
  | _ => 0

variable {α : Type v} [CommRing α] [StarRing α] [DecidableEq α]

/-- Tasks created by `plasma_zsyrk` (`h = false`, compute/zsyrk.c:140-193) and
`plasma_zherk` (`h = true`, compute/zherk.c:138-191) with legal arguments. -/
def zrk (nb : Nat) (h : Bool) (re : α → α) (u : Uplo) (t : Trans) (n k : Nat) (alpha beta : α) :
    List (TTask (Buf × Nat × Nat) α) :=
  if n = 0 ∨ ((alpha = 0 ∨ k = 0) ∧ beta = 1) then []
  else driver nb (rkDims t n k 1) [0, 1]
    (ompRk h re u t alpha (tMat nb (rkDims t n k 1) 0) beta (tMat nb (rkDims t n k 1) 1)) [1]

/-- Tasks created by `plasma_zsyr2k` (compute/zsyr2k.c:162-228) and `plasma_zher2k`
(compute/zher2k.c:162-228) with legal arguments. -/
def zr2k (nb : Nat) (h : Bool) (re : α → α) (u : Uplo) (t : Trans) (n k : Nat) (alpha beta : α) :
    List (TTask (Buf × Nat × Nat) α) :=
  if n = 0 ∨ ((alpha = 0 ∨ k = 0) ∧ beta = 1) then []
  else driver nb (rkDims t n k 2) [0, 1, 2]
    (ompR2k h re u t alpha (tMat nb (rkDims t n k 2) 0) (tMat nb (rkDims t n k 2) 1) beta
      (tMat nb (rkDims t n k 2) 2)) [2]

theorem rk_shape {nb : Nat} {t : Trans} {n k res a : Nat} (ha : a < res) :
    RkShape t n k (tMat nb (rkDims t n k res) a) := by
  constructor <;> simp only [tMat, TMat.full, general, rkDims, ha, if_true] <;> split <;> rfl

/-- The leading-dimension checks of the rank-k drivers (compute/zsyrk.c:131-138). -/
def RkLd (t : Trans) (n k lda ldc : Nat) : Prop :=
  max 1 (if t = .noTrans then n else k) ≤ lda ∧ max 1 n ≤ ldc

/-- The leading-dimension checks of the rank-2k drivers (compute/zsyr2k.c:149-160). -/
def R2kLd (t : Trans) (n k lda ldb ldc : Nat) : Prop :=
  max 1 (if t = .noTrans then n else k) ≤ lda ∧ max 1 (if t = .noTrans then n else k) ≤ ldb ∧
    max 1 n ≤ ldc

theorem rk_ld {t : Trans} {n k lda ldc : Nat} (h : RkLd t n k lda ldc) :
    ∀ a, (rkDims t n k 1 a).1 ≤ ld2 lda ldc a := by
  obtain ⟨h1, h3⟩ := h
  intro a
  match a with
  | 0 => simp only [rkDims, ld2]; split at h1 <;> rename_i hh <;> simp [hh] <;> omega
  | 1 => simp only [rkDims, ld2]; simp; omega
  | k+2 => simp [rkDims]

theorem r2k_ld {t : Trans} {n k lda ldb ldc : Nat} (h : R2kLd t n k lda ldb ldc) :
    ∀ a, (rkDims t n k 2 a).1 ≤ ld3 lda ldb ldc a := by
  obtain ⟨h1, h2, h3⟩ := h
  intro a
  match a with
  | 0 => simp only [rkDims, ld3]; split at h1 <;> rename_i hh <;> simp [hh] <;> omega
  | 1 => simp only [rkDims, ld3]; split at h2 <;> rename_i hh <;> simp [hh] <;> omega
  | 2 => simp only [rkDims, ld3]; simp; omega
  | k+3 => simp [rkDims]

theorem opE_congr {α : Type v} [Star α] {t : Trans} {X Y : Nat → Nat → α} {n k i l : Nat} (hi : i < n) (hl : l < k)
    (h : ∀ r c, r < (if t = .noTrans then (n, k) else (k, n)).1 →
      c < (if t = .noTrans then (n, k) else (k, n)).2 → X r c = Y r c) :
    opE t X i l = opE t Y i l := by
  cases t <;> simp only [opE] <;> rw [h] <;> simpa using by assumption

theorem ompRk_good {nb : Nat} (hnb : 0 < nb) {h : Bool} {re : α → α} {u : Uplo} {t : Trans} {n k : Nat}
    {ld : Nat → Nat} {alpha beta : α} :
    Good (evalid (drvEnv nb (rkDims t n k 1) ld))
      (ompRk h re u t alpha (tMat nb (rkDims t n k 1) 0) beta (tMat nb (rkDims t n k 1) 1)) :=
  Good.ite (fun _ => Good.nil) (fun _ => pzrk_good (fits_t hnb 0) (fits_t hnb 1) rfl rfl (rk_shape (by omega)))

theorem ompRk_onTiles {nb : Nat} (hnb : 0 < nb) {h : Bool} {re : α → α} {u : Uplo} {t : Trans} {n k : Nat}
    {alpha beta : α} :
    OnTiles (ompRk h re u t alpha (tMat nb (rkDims t n k 1) 0) beta (tMat nb (rkDims t n k 1) 1)) :=
  Writes.ite (fun _ => Writes.nil)
    (fun _ => (pzrk_writes (al_t hnb 0) (al_t hnb 1) rfl rfl (rk_shape (by omega))).mono fun x hx => ⟨1, hx⟩)

theorem ompR2k_good {nb : Nat} (hnb : 0 < nb) {h : Bool} {re : α → α} {u : Uplo} {t : Trans} {n k : Nat}
    {ld : Nat → Nat} {alpha beta : α} :
    Good (evalid (drvEnv nb (rkDims t n k 2) ld))
      (ompR2k h re u t alpha (tMat nb (rkDims t n k 2) 0) (tMat nb (rkDims t n k 2) 1) beta
        (tMat nb (rkDims t n k 2) 2)) :=
  Good.ite (fun _ => Good.nil) (fun _ => pzr2k_good (fits_t hnb 0) (fits_t hnb 1) (fits_t hnb 2) rfl rfl
    (rk_shape (by omega)) (rk_shape (by omega)))

theorem ompR2k_onTiles {nb : Nat} (hnb : 0 < nb) {h : Bool} {re : α → α} {u : Uplo} {t : Trans} {n k : Nat}
    {alpha beta : α} :
    OnTiles (ompR2k h re u t alpha (tMat nb (rkDims t n k 2) 0) (tMat nb (rkDims t n k 2) 1) beta
        (tMat nb (rkDims t n k 2) 2)) :=
  Writes.ite (fun _ => Writes.nil)
    (fun _ => (pzr2k_writes (al_t hnb 0) (al_t hnb 2) rfl rfl (rk_shape (by omega))).mono fun x hx => ⟨2, hx⟩)

/-- Both rank-k drivers, for a positive inner dimension or `beta = 1`. -/
theorem zrk_correct {nb : Nat} (hnb : 0 < nb) (h : Bool) (re : α → α) (u : Uplo) (t : Trans)
    (ht : t = .noTrans ∨ t = tt h) (n k lda ldc : Nat) (hl : RkLd t n k lda ldc) (alpha beta : α)
    (hsc : RkScal h re alpha beta) (hk : 0 < k ∨ beta = 1) (mem mem' : Buf × Nat → α)
    (hx : Exec (drvEnv nb (rkDims t n k 1) (ld2 lda ldc)) (zrk nb h re u t n k alpha beta) mem mem') :
    (∀ i j, i < n → j < n →
      mem' (.usr 1, i + j * ldc) =
        if inTri u i j then
          if (alpha = 0 ∨ k = 0) ∧ beta = 1 then mem (.usr 1, i + j * ldc)
          else beta * dre h re i j (mem (.usr 1, i + j * ldc)) +
            alpha * ∑ l ∈ range k, opE t (fun p q => mem (.usr 0, p + q * lda)) i l *
                               cj h (opE t (fun p q => mem (.usr 0, p + q * lda)) j l)
        else mem (.usr 1, i + j * ldc)) ∧
    (∀ x, mem' (.usr 0, x) = mem (.usr 0, x)) ∧
    (∀ x, (∀ i j, i < n → j < n → x ≠ i + j * ldc) → mem' (.usr 1, x) = mem (.usr 1, x)) := by
  unfold zrk at hx
  split at hx
  · rename_i hq
    rw [hx.nil]
    refine ⟨fun i j hi hj => ?_, fun _ => rfl, fun _ _ => rfl⟩
    rcases hq with hq | hq
    · omega
    · rw [if_pos hq]; simp
  · rename_i hq
    obtain ⟨s, hin, hout, h3, h4⟩ := driver_correct hnb (rk_ld hl) (by simp) (by simp)
      (ompRk_good hnb) (ompRk_onTiles hnb) hx
    refine ⟨fun i j hi hj => ?_, h3 0 (by simp), fun x hx => ?_⟩
    · have h5 := hout 1 (by simp) i j (by simpa [rkDims] using hi) (by simpa [rkDims] using hj)
      simp only [ld2] at h5
      rw [not_or] at hq
      have homp : ompRk h re u t alpha (tMat nb (rkDims t n k 1) 0) beta (tMat nb (rkDims t n k 1) 1) =
          pzrk h re u t alpha (tMat nb (rkDims t n k 1) 0) beta (tMat nb (rkDims t n k 1) 1) := by
        unfold ompRk
        dsimp only
        rw [if_neg]
        rw [(rk_shape (nb := nb) (n := n) (k := k) (t := t) (show 0 < 1 by omega)).an]
        rw [not_or]
        exact ⟨by simpa [tMat, TMat.full, general, rkDims] using hq.1, hq.2⟩
      have hk' : 0 < k := by
        rcases hk with hk | hk
        · exact hk
        · by_contra h0
          exact hq.2 ⟨Or.inr (by omega), hk⟩
      rw [h5, homp, pzrk_el (al_t hnb 0) (al_t hnb 1) (show _ = n from rfl) rfl (rk_shape (by omega))
        (by simp [tMat, TMat.full]) ht hsc hk' s hi hj]
      have hC := hin 1 (by simp) i j (by simpa [rkDims] using hi) (by simpa [rkDims] using hj)
      have hA := hin 0 (by simp)
      simp only [ld2, rkDims, show (0:Nat) < 1 by omega, if_true] at hC hA
      rw [hC, if_neg hq.2]
      congr 3
      apply Finset.sum_congr rfl
      intro l hl'
      rw [mem_range] at hl'
      rw [opE_congr hi hl' hA, opE_congr hj hl' hA]
    · exact h4 1 x (fun i j hi hj => hx i j (by simpa [rkDims] using hi) (by simpa [rkDims] using hj))

/-- **C09 (symmetric), partial.** For a positive inner dimension `k` (or `beta = 1`),
`plasma_zsyrk` sets the selected triangle of `pC` to `alpha op(A) op(A)ᵀ + beta C` and
changes neither the other strict triangle, nor `pA`, nor padding.  Missing from the full
claim: `k = 0` with `beta ≠ 1`, for which it is false (`C09_zero_inner_ignored`). -/
theorem C09_syrk_partial {nb : Nat} (hnb : 0 < nb) (u : Uplo) (t : Trans) (ht : t = .noTrans ∨ t = .trans)
    (n k lda ldc : Nat) (hl : RkLd t n k lda ldc) (alpha beta : α) (hk : 0 < k ∨ beta = 1)
    (mem mem' : Buf × Nat → α)
    (hx : Exec (drvEnv nb (rkDims t n k 1) (ld2 lda ldc)) (zrk nb false id u t n k alpha beta) mem mem') :
    (∀ i j, i < n → j < n →
      mem' (.usr 1, i + j * ldc) =
        if inTri u i j then beta * mem (.usr 1, i + j * ldc) +
            alpha * ∑ l ∈ range k, opE t (fun p q => mem (.usr 0, p + q * lda)) i l *
                               opE t (fun p q => mem (.usr 0, p + q * lda)) j l
        else mem (.usr 1, i + j * ldc)) ∧
    (∀ x, mem' (.usr 0, x) = mem (.usr 0, x)) ∧
    (∀ x, (∀ i j, i < n → j < n → x ≠ i + j * ldc) → mem' (.usr 1, x) = mem (.usr 1, x)) := by
  obtain ⟨h1, h2, h3⟩ := zrk_correct hnb false id u t ht n k lda ldc hl alpha beta
    ⟨by simp, by simp, by simp⟩ hk mem mem' hx
  refine ⟨fun i j hi hj => ?_, h2, h3⟩
  rw [h1 i j hi hj]
  split
  · split
    · rename_i hq
      rcases hq with ⟨hq | hq, hq'⟩ <;> simp [hq, hq']
    · simp [dre, cj]
  · rfl

/-- **C09 (Hermitian), partial.** For a positive inner dimension, real `alpha`, `beta` and
a matrix `C` with real diagonal, `plasma_zherk` sets the selected triangle of `pC` to
`alpha op(A) op(A)ᴴ + beta C`; frame as for the symmetric case.  For `k = 0` with
`beta ≠ 1` see `C09_zero_inner_ignored`. -/
theorem C09_herk_partial {nb : Nat} (hnb : 0 < nb) (re : α → α) (hre : RePart re) (u : Uplo) (t : Trans)
    (ht : t = .noTrans ∨ t = .conjTrans)
    (n k lda ldc : Nat) (hl : RkLd t n k lda ldc) (alpha beta : α) (ha : star alpha = alpha)
    (hb : star beta = beta) (hk : 0 < k ∨ beta = 1) (mem mem' : Buf × Nat → α)
    (hd : ∀ i, i < n → star (mem (.usr 1, i + i * ldc)) = mem (.usr 1, i + i * ldc))
    (hx : Exec (drvEnv nb (rkDims t n k 1) (ld2 lda ldc)) (zrk nb true re u t n k alpha beta) mem mem') :
    (∀ i j, i < n → j < n →
      mem' (.usr 1, i + j * ldc) =
        if inTri u i j then beta * mem (.usr 1, i + j * ldc) +
            alpha * ∑ l ∈ range k, opE t (fun p q => mem (.usr 0, p + q * lda)) i l *
                               star (opE t (fun p q => mem (.usr 0, p + q * lda)) j l)
        else mem (.usr 1, i + j * ldc)) ∧
    (∀ x, mem' (.usr 0, x) = mem (.usr 0, x)) ∧
    (∀ x, (∀ i j, i < n → j < n → x ≠ i + j * ldc) → mem' (.usr 1, x) = mem (.usr 1, x)) := by
  obtain ⟨h1, h2, h3⟩ := zrk_correct hnb true re u t ht n k lda ldc hl alpha beta
    ⟨fun _ => hre, fun _ => ha, fun _ => hb⟩ hk mem mem' hx
  refine ⟨fun i j hi hj => ?_, h2, h3⟩
  rw [h1 i j hi hj]
  split
  · split
    · rename_i hq
      rcases hq with ⟨hq | hq, hq'⟩ <;> simp [hq, hq']
    · rw [dre_sa (fun _ => hre) (fun _ hij => by subst hij; exact hd i hi)]
      simp [cj]
  · rfl

/-- **C09 is false for `k = 0`.** With an empty inner dimension the rank-k drivers leave
`pC` as it is, whatever `beta` is; BLAS would scale the triangle by `beta`.  (Both
`plasma_zsyrk` and `plasma_zherk`: the `k` loop that applies `beta` is empty.) -/
theorem C09_zero_inner_ignored {nb : Nat} (hnb : 0 < nb) (h : Bool) (re : α → α) (u : Uplo) (t : Trans)
    (n lda ldc : Nat) (hl : RkLd t n 0 lda ldc) (alpha beta : α) (mem mem' : Buf × Nat → α)
    (hx : Exec (drvEnv nb (rkDims t n 0 1) (ld2 lda ldc)) (zrk nb h re u t n 0 alpha beta) mem mem') :
    ∀ x, mem' (.usr 1, x) = mem (.usr 1, x) := by
  unfold zrk at hx
  split at hx
  · rw [hx.nil]; simp
  · obtain ⟨s, hin, hout, h3, h4⟩ := driver_correct hnb (rk_ld hl) (by simp) (by simp)
      (ompRk_good hnb) (ompRk_onTiles hnb) hx
    intro x
    by_cases hx' : ∃ i j, i < n ∧ j < n ∧ x = i + j * ldc
    · obtain ⟨i, j, hi, hj, rfl⟩ := hx'
      have h5 := hout 1 (by simp) i j (by simpa [rkDims] using hi) (by simpa [rkDims] using hj)
      have h6 := hin 1 (by simp) i j (by simpa [rkDims] using hi) (by simpa [rkDims] using hj)
      simp only [ld2] at h5 h6
      rw [h5, ← h6]
      congr 1
      have hz : ceilDiv 0 nb = 0 := by
        unfold ceilDiv; exact Nat.div_eq_of_lt (by omega)
      have e0 : pzrk h re u t alpha (tMat nb (rkDims t n 0 1) 0) beta (tMat nb (rkDims t n 0 1) 1) = [] := by
        rw [pzrk_eq (N := n) (k := 0) (al_t hnb 0) (al_t hnb 1) rfl rfl (rk_shape (by omega)), hz]
        simp
      unfold ompRk
      rw [e0]
      simp
    · exact h4 1 x (fun i j hi hj he => hx' ⟨i, j, by simpa [rkDims] using hi, by simpa [rkDims] using hj, he⟩)

/-- **C10 (both), partial.** For a positive inner dimension, the rank-2k drivers set the
selected triangle to `alpha op(A) op(B)ᵀ + alpha op(B) op(A)ᵀ + beta C` (conjugated
variant: `ᴴ`, `alpha` and `conj alpha`).  Missing from the full claim: `k = 0` with
`beta ≠ 1`, for which it is false (`C10_zero_inner_ignored`). -/
theorem zr2k_correct {nb : Nat} (hnb : 0 < nb) (h : Bool) (re : α → α) (hre : h = true → RePart re) (u : Uplo)
    (t : Trans) (ht : t = .noTrans ∨ t = tt h) (n k lda ldb ldc : Nat) (hl : R2kLd t n k lda ldb ldc)
    (alpha beta : α) (hb : h = true → star beta = beta) (hk : 0 < k ∨ beta = 1) (mem mem' : Buf × Nat → α)
    (hx : Exec (drvEnv nb (rkDims t n k 2) (ld3 lda ldb ldc)) (zr2k nb h re u t n k alpha beta) mem mem') :
    (∀ i j, i < n → j < n →
      mem' (.usr 2, i + j * ldc) =
        if inTri u i j then
          if (alpha = 0 ∨ k = 0) ∧ beta = 1 then mem (.usr 2, i + j * ldc)
          else beta * dre h re i j (mem (.usr 2, i + j * ldc)) +
            (alpha * ∑ l ∈ range k, opE t (fun p q => mem (.usr 0, p + q * lda)) i l *
                               cj h (opE t (fun p q => mem (.usr 1, p + q * ldb)) j l) +
             cj h alpha * ∑ l ∈ range k, opE t (fun p q => mem (.usr 1, p + q * ldb)) i l *
                               cj h (opE t (fun p q => mem (.usr 0, p + q * lda)) j l))
        else mem (.usr 2, i + j * ldc)) ∧
    (∀ x, mem' (.usr 0, x) = mem (.usr 0, x)) ∧ (∀ x, mem' (.usr 1, x) = mem (.usr 1, x)) ∧
    (∀ x, (∀ i j, i < n → j < n → x ≠ i + j * ldc) → mem' (.usr 2, x) = mem (.usr 2, x)) := by
  unfold zr2k at hx
  split at hx
  · rename_i hq
    rw [hx.nil]
    refine ⟨fun i j hi hj => ?_, fun _ => rfl, fun _ => rfl, fun _ _ => rfl⟩
    rcases hq with hq | hq
    · omega
    · rw [if_pos hq]; simp
  · rename_i hq
    obtain ⟨s, hin, hout, h3, h4⟩ := driver_correct hnb (r2k_ld hl) (by simp) (by simp)
      (ompR2k_good hnb) (ompR2k_onTiles hnb) hx
    refine ⟨fun i j hi hj => ?_, h3 0 (by simp), h3 1 (by simp), fun x hx => ?_⟩
    · have h5 := hout 2 (by simp) i j (by simpa [rkDims] using hi) (by simpa [rkDims] using hj)
      simp only [ld3] at h5
      rw [not_or] at hq
      have homp : ompR2k h re u t alpha (tMat nb (rkDims t n k 2) 0) (tMat nb (rkDims t n k 2) 1) beta
            (tMat nb (rkDims t n k 2) 2) =
          pzr2k h re u t alpha (tMat nb (rkDims t n k 2) 0) (tMat nb (rkDims t n k 2) 1) beta
            (tMat nb (rkDims t n k 2) 2) := by
        unfold ompR2k
        dsimp only
        rw [if_neg]
        rw [(rk_shape (nb := nb) (n := n) (k := k) (t := t) (show 0 < 2 by omega)).an]
        rw [not_or]
        exact ⟨by simpa [tMat, TMat.full, general, rkDims] using hq.1, hq.2⟩
      have hk' : 0 < k := by
        rcases hk with hk | hk
        · exact hk
        · by_contra h0
          exact hq.2 ⟨Or.inr (by omega), hk⟩
      rw [h5, homp, pzr2k_el (al_t hnb 0) (al_t hnb 1) (al_t hnb 2) (show _ = n from rfl) rfl
        (rk_shape (by omega)) (by simp [tMat, TMat.full]) (by simp [tMat, TMat.full]) ht hre hb hk' s hi hj]
      have hC := hin 2 (by simp) i j (by simpa [rkDims] using hi) (by simpa [rkDims] using hj)
      have hA := hin 0 (by simp)
      have hB := hin 1 (by simp)
      simp only [ld3, rkDims, show (0:Nat) < 2 by omega, show (1:Nat) < 2 by omega, if_true] at hC hA hB
      rw [hC, if_neg hq.2]
      congr 2
      congr 1 <;> congr 1 <;> apply Finset.sum_congr rfl <;> intro l hl' <;> rw [mem_range] at hl'
      · rw [opE_congr hi hl' hA, opE_congr hj hl' hB]
      · rw [opE_congr hi hl' hB, opE_congr hj hl' hA]
    · exact h4 2 x (fun i j hi hj => hx i j (by simpa [rkDims] using hi) (by simpa [rkDims] using hj))

/-- **C10 (symmetric), partial**: see `zr2k_correct`; missing: `k = 0`, `beta ≠ 1`. -/
theorem C10_syr2k_partial {nb : Nat} (hnb : 0 < nb) (u : Uplo) (t : Trans) (ht : t = .noTrans ∨ t = .trans)
    (n k lda ldb ldc : Nat) (hl : R2kLd t n k lda ldb ldc) (alpha beta : α) (hk : 0 < k ∨ beta = 1)
    (mem mem' : Buf × Nat → α)
    (hx : Exec (drvEnv nb (rkDims t n k 2) (ld3 lda ldb ldc)) (zr2k nb false id u t n k alpha beta) mem mem') :
    (∀ i j, i < n → j < n →
      mem' (.usr 2, i + j * ldc) =
        if inTri u i j then beta * mem (.usr 2, i + j * ldc) +
            alpha * (∑ l ∈ range k, opE t (fun p q => mem (.usr 0, p + q * lda)) i l *
                               opE t (fun p q => mem (.usr 1, p + q * ldb)) j l) +
            alpha * (∑ l ∈ range k, opE t (fun p q => mem (.usr 1, p + q * ldb)) i l *
                               opE t (fun p q => mem (.usr 0, p + q * lda)) j l)
        else mem (.usr 2, i + j * ldc)) ∧
    (∀ x, mem' (.usr 0, x) = mem (.usr 0, x)) ∧ (∀ x, mem' (.usr 1, x) = mem (.usr 1, x)) ∧
    (∀ x, (∀ i j, i < n → j < n → x ≠ i + j * ldc) → mem' (.usr 2, x) = mem (.usr 2, x)) := by
  obtain ⟨h1, h2⟩ := zr2k_correct hnb false id (by simp) u t ht n k lda ldb ldc hl alpha beta (by simp) hk
    mem mem' hx
  refine ⟨fun i j hi hj => ?_, h2⟩
  rw [h1 i j hi hj]
  split
  · split
    · rename_i hq
      rcases hq with ⟨hq | hq, hq'⟩ <;> simp [hq, hq']
    · simp [dre, cj, add_assoc]
  · rfl

/-- **C10 (Hermitian), partial**: see `zr2k_correct`; missing: `k = 0`, `beta ≠ 1`. -/
theorem C10_her2k_partial {nb : Nat} (hnb : 0 < nb) (re : α → α) (hre : RePart re) (u : Uplo) (t : Trans)
    (ht : t = .noTrans ∨ t = .conjTrans) (n k lda ldb ldc : Nat) (hl : R2kLd t n k lda ldb ldc)
    (alpha beta : α) (hb : star beta = beta) (hk : 0 < k ∨ beta = 1) (mem mem' : Buf × Nat → α)
    (hd : ∀ i, i < n → star (mem (.usr 2, i + i * ldc)) = mem (.usr 2, i + i * ldc))
    (hx : Exec (drvEnv nb (rkDims t n k 2) (ld3 lda ldb ldc)) (zr2k nb true re u t n k alpha beta) mem mem') :
    (∀ i j, i < n → j < n →
      mem' (.usr 2, i + j * ldc) =
        if inTri u i j then beta * mem (.usr 2, i + j * ldc) +
            alpha * (∑ l ∈ range k, opE t (fun p q => mem (.usr 0, p + q * lda)) i l *
                               star (opE t (fun p q => mem (.usr 1, p + q * ldb)) j l)) +
            star alpha * (∑ l ∈ range k, opE t (fun p q => mem (.usr 1, p + q * ldb)) i l *
                               star (opE t (fun p q => mem (.usr 0, p + q * lda)) j l))
        else mem (.usr 2, i + j * ldc)) ∧
    (∀ x, mem' (.usr 0, x) = mem (.usr 0, x)) ∧ (∀ x, mem' (.usr 1, x) = mem (.usr 1, x)) ∧
    (∀ x, (∀ i j, i < n → j < n → x ≠ i + j * ldc) → mem' (.usr 2, x) = mem (.usr 2, x)) := by
  obtain ⟨h1, h2⟩ := zr2k_correct hnb true re (fun _ => hre) u t ht n k lda ldb ldc hl alpha beta
    (fun _ => hb) hk mem mem' hx
  refine ⟨fun i j hi hj => ?_, h2⟩
  rw [h1 i j hi hj]
  split
  · split
    · rename_i hq
      rcases hq with ⟨hq | hq, hq'⟩ <;> simp [hq, hq']
    · rw [dre_sa (fun _ => hre) (fun _ hij => by subst hij; exact hd i hi)]
      simp [cj, add_assoc]
  · rfl

/-- **C10 is false for `k = 0`.** With an empty inner dimension the rank-2k drivers leave
`pC` as it is, whatever `beta` is. -/
theorem C10_zero_inner_ignored {nb : Nat} (hnb : 0 < nb) (h : Bool) (re : α → α) (u : Uplo) (t : Trans)
    (n lda ldb ldc : Nat) (hl : R2kLd t n 0 lda ldb ldc) (alpha beta : α) (mem mem' : Buf × Nat → α)
    (hx : Exec (drvEnv nb (rkDims t n 0 2) (ld3 lda ldb ldc)) (zr2k nb h re u t n 0 alpha beta) mem mem') :
    ∀ x, mem' (.usr 2, x) = mem (.usr 2, x) := by
  unfold zr2k at hx
  split at hx
  · rw [hx.nil]; simp
  · obtain ⟨s, hin, hout, h3, h4⟩ := driver_correct hnb (r2k_ld hl) (by simp) (by simp)
      (ompR2k_good hnb) (ompR2k_onTiles hnb) hx
    intro x
    by_cases hx' : ∃ i j, i < n ∧ j < n ∧ x = i + j * ldc
    · obtain ⟨i, j, hi, hj, rfl⟩ := hx'
      have h5 := hout 2 (by simp) i j (by simpa [rkDims] using hi) (by simpa [rkDims] using hj)
      have h6 := hin 2 (by simp) i j (by simpa [rkDims] using hi) (by simpa [rkDims] using hj)
      simp only [ld3] at h5 h6
      rw [h5, ← h6]
      congr 1
      have hz : ceilDiv 0 nb = 0 := by
        unfold ceilDiv; exact Nat.div_eq_of_lt (by omega)
      have e0 : pzr2k h re u t alpha (tMat nb (rkDims t n 0 2) 0) (tMat nb (rkDims t n 0 2) 1) beta (tMat nb (rkDims t n 0 2) 2) = [] := by
        rw [pzr2k_eq (N := n) (k := 0) (al_t hnb 0) (al_t hnb 2) rfl rfl (rk_shape (by omega)), hz]
        simp
      unfold ompR2k
      rw [e0]
      simp
    · exact h4 2 x (fun i j hi hj he => hx' ⟨i, j, by simpa [rkDims] using hi, by simpa [rkDims] using hj, he⟩)

/-! ### C11 -/

/-- Dimensions of `pA`, `pB`, `pC` in `plasma_zsymm`/`plasma_zhemm`
(compute/zsymm.c:127-182, compute/zhemm.c:125-182). -/
def symmDims (sd : Side) (m n : Nat) : Nat → Nat × Nat
  | 0 => (symOrd sd m n, symOrd sd m n)
  | 1 => (m, n)
  | 2 => (m, n)
  | _ => (0, 0)

/-- Tasks created by `plasma_zsymm` (`h = false`, compute/zsymm.c:147-212) and
`plasma_zhemm` (`h = true`, compute/zhemm.c:146-211) with legal arguments. -/
def zsymm (nb : Nat) (h : Bool) (re : α → α) (sd : Side) (u : Uplo) (m n : Nat) (alpha beta : α) :
    List (TTask (Buf × Nat × Nat) α) :=
  if m = 0 ∨ n = 0 ∨ (alpha = 0 ∧ beta = 1) then []
  else driver nb (symmDims sd m n) [0, 1, 2]
    (ompSymm h re sd u alpha (tMat nb (symmDims sd m n) 0) (tMat nb (symmDims sd m n) 1) beta
      (tMat nb (symmDims sd m n) 2)) [2]

/-- The leading-dimension checks (compute/zsymm.c:134-145). -/
def SymmLd (sd : Side) (m n lda ldb ldc : Nat) : Prop :=
  max 1 (symOrd sd m n) ≤ lda ∧ max 1 m ≤ ldb ∧ max 1 m ≤ ldc

theorem symm_ld {sd : Side} {m n lda ldb ldc : Nat} (h : SymmLd sd m n lda ldb ldc) :
    ∀ a, (symmDims sd m n a).1 ≤ ld3 lda ldb ldc a := by
  obtain ⟨h1, h2, h3⟩ := h
  intro a
  match a with
  | 0 => simp only [symmDims, ld3]; omega
  | 1 => simp only [symmDims, ld3]; omega
  | 2 => simp only [symmDims, ld3]; omega
  | k+3 => simp [symmDims]

theorem ompSymm_good {nb : Nat} (hnb : 0 < nb) {h : Bool} {re : α → α} {sd : Side} {u : Uplo} {m n : Nat}
    {ld : Nat → Nat} {alpha beta : α} :
    Good (evalid (drvEnv nb (symmDims sd m n) ld))
      (ompSymm h re sd u alpha (tMat nb (symmDims sd m n) 0) (tMat nb (symmDims sd m n) 1) beta
        (tMat nb (symmDims sd m n) 2)) :=
  Good.ite (fun _ => Good.nil) (fun _ => pzsymm_good (fits_t hnb 0) (fits_t hnb 1) (fits_t hnb 2)
    (show _ = m from rfl) (show _ = n from rfl) rfl rfl rfl rfl)

theorem ompSymm_onTiles {nb : Nat} (hnb : 0 < nb) {h : Bool} {re : α → α} {sd : Side} {u : Uplo} {m n : Nat}
    {alpha beta : α} :
    OnTiles (ompSymm h re sd u alpha (tMat nb (symmDims sd m n) 0) (tMat nb (symmDims sd m n) 1) beta
        (tMat nb (symmDims sd m n) 2)) :=
  Writes.ite (fun _ => Writes.nil)
    (fun _ => (pzsymm_writes (al_t hnb 2) rfl rfl).mono fun _ hx => ⟨2, hx⟩)

/-- **C11.** `plasma_zsymm` (`h = false`) and `plasma_zhemm` (`h = true`) compute
`alpha A B + beta C` (Left) or `alpha B A + beta C` (Right), where `A` is the full
symmetric/Hermitian matrix described by the selected triangle (`symE`); nothing else of
the user's memory changes. -/
theorem C11_symm {nb : Nat} (hnb : 0 < nb) (h : Bool) (re : α → α) (sd : Side) (u : Uplo) (m n lda ldb ldc : Nat)
    (hl : SymmLd sd m n lda ldb ldc) (alpha beta : α) (mem mem' : Buf × Nat → α)
    (hx : Exec (drvEnv nb (symmDims sd m n) (ld3 lda ldb ldc)) (zsymm nb h re sd u m n alpha beta) mem mem') :
    (∀ i j, i < m → j < n →
      mem' (.usr 2, i + j * ldc) = beta * mem (.usr 2, i + j * ldc) + alpha *
        (if sd = .left then
           ∑ l ∈ range m, symE h re u (fun p q => mem (.usr 0, p + q * lda)) i l * mem (.usr 1, l + j * ldb)
         else
           ∑ l ∈ range n, mem (.usr 1, i + l * ldb) * symE h re u (fun p q => mem (.usr 0, p + q * lda)) l j)) ∧
    (∀ x, mem' (.usr 0, x) = mem (.usr 0, x)) ∧ (∀ x, mem' (.usr 1, x) = mem (.usr 1, x)) ∧
    (∀ x, (∀ i j, i < m → j < n → x ≠ i + j * ldc) → mem' (.usr 2, x) = mem (.usr 2, x)) := by
  unfold zsymm at hx
  split at hx
  · rename_i hq
    rw [hx.nil]
    refine ⟨fun i j hi hj => ?_, fun _ => rfl, fun _ => rfl, fun _ _ => rfl⟩
    rcases hq with hq | hq | ⟨hq, hq'⟩
    · omega
    · omega
    · simp [hq, hq']
  · rename_i hq
    obtain ⟨s, hin, hout, h3, h4⟩ := driver_correct hnb (symm_ld hl) (by simp) (by simp)
      (ompSymm_good hnb) (ompSymm_onTiles hnb) hx
    refine ⟨fun i j hi hj => ?_, h3 0 (by simp), h3 1 (by simp), fun x hx => h4 2 x hx⟩
    have h5 := hout 2 (by simp) i j hi hj
    simp only [ld3] at h5
    rw [not_or, not_or] at hq
    have hord : symOrd sd m n ≠ 0 := by unfold symOrd; split <;> [exact hq.1; exact hq.2.1]
    have homp : ompSymm h re sd u alpha (tMat nb (symmDims sd m n) 0) (tMat nb (symmDims sd m n) 1) beta
          (tMat nb (symmDims sd m n) 2) =
        pzsymm h re sd u alpha (tMat nb (symmDims sd m n) 0) (tMat nb (symmDims sd m n) 1) beta
          (tMat nb (symmDims sd m n) 2) := by
      unfold ompSymm
      rw [if_neg]
      rintro (h1 | h1 | ⟨h1 | h1, h2⟩)
      · exact hq.1 h1
      · exact hq.2.1 h1
      · exact hq.2.2 ⟨h1, h2⟩
      · exact hord h1
    rw [h5, homp, pzsymm_el (al_t hnb 0) (al_t hnb 1) (al_t hnb 2) (show _ = m from rfl)
      (show _ = n from rfl) (by simp [tMat, TMat.full]) (by simp [tMat, TMat.full]) s hi hj]
    have hC := hin 2 (by simp) i j hi hj
    have hA := hin 0 (by simp)
    have hB := hin 1 (by simp)
    simp only [ld3, symmDims] at hC hA hB
    rw [hC]
    congr 2
    cases sd
    · simp only [symOrd, symmProd, if_true] at hA ⊢
      apply Finset.sum_congr rfl
      intro l hl'
      rw [mem_range] at hl'
      rw [hB l j hl' hj, symE_congr hi hl' (fun p q hpq => hA p q hpq.1 hpq.2.1)]
    · simp only [symOrd, symmProd, reduceCtorEq, if_false] at hA ⊢
      apply Finset.sum_congr rfl
      intro l hl'
      rw [mem_range] at hl'
      rw [hB i l hi hl', symE_congr hl' hj (fun p q hpq => hA p q hpq.1 hpq.2.1)]

/-- **C11, the other triangle.** The result does not depend on the elements of `pA`
outside the selected triangle. -/
theorem C11_other_triangle {nb : Nat} (hnb : 0 < nb) (h : Bool) (re : α → α) (sd : Side) (u : Uplo)
    (m n lda ldb ldc : Nat) (hl : SymmLd sd m n lda ldb ldc) (alpha beta : α)
    (mem1 mem2 mem1' mem2' : Buf × Nat → α)
    (hA : ∀ i j, inTri u i j → mem1 (.usr 0, i + j * lda) = mem2 (.usr 0, i + j * lda))
    (hB : ∀ x, mem1 (.usr 1, x) = mem2 (.usr 1, x)) (hC : ∀ x, mem1 (.usr 2, x) = mem2 (.usr 2, x))
    (hx1 : Exec (drvEnv nb (symmDims sd m n) (ld3 lda ldb ldc)) (zsymm nb h re sd u m n alpha beta) mem1 mem1')
    (hx2 : Exec (drvEnv nb (symmDims sd m n) (ld3 lda ldb ldc)) (zsymm nb h re sd u m n alpha beta) mem2 mem2') :
    ∀ x, mem1' (.usr 2, x) = mem2' (.usr 2, x) := by
  obtain ⟨h1, -, -, h2⟩ := C11_symm hnb h re sd u m n lda ldb ldc hl alpha beta mem1 mem1' hx1
  obtain ⟨h1', -, -, h2'⟩ := C11_symm hnb h re sd u m n lda ldb ldc hl alpha beta mem2 mem2' hx2
  intro x
  by_cases hx' : ∃ i j, i < m ∧ j < n ∧ x = i + j * ldc
  · obtain ⟨i, j, hi, hj, rfl⟩ := hx'
    rw [h1 i j hi hj, h1' i j hi hj, hC]
    have e : ∀ p q, symE h re u (fun p q => mem1 (.usr 0, p + q * lda)) p q =
        symE h re u (fun p q => mem2 (.usr 0, p + q * lda)) p q := by
      intro p q
      exact symE_congr (n := p + q + 1) (by omega) (by omega) (fun i j hij => hA i j hij.2.2)
    simp only [e, hB]
  · have hn : ∀ i j, i < m → j < n → x ≠ i + j * ldc := fun i j hi hj he => hx' ⟨i, j, hi, hj, he⟩
    rw [h2 x hn, h2' x hn, hC]

/-! ### Cases meeting the hypotheses -/

/-- The real part of complex numbers. -/
theorem rePart_complex : RePart (α := ℂ) (fun z => (z.re : ℂ)) where
  sa := fun x => Complex.conj_ofReal x.re
  fix := fun _ hx => Complex.conj_eq_iff_re.mp hx

/-- 5×5 results from 5×3 operands with tiles of size 2: executions exist. -/
example (mem : Buf × Nat → ℤ) : RkLd .noTrans 5 3 6 7 ∧ ∃ mem',
    Exec (drvEnv 2 (rkDims .noTrans 5 3 1) (ld2 6 7)) (zrk 2 false id .lower .noTrans 5 3 2 3) mem mem' :=
  ⟨by simp [RkLd], driver_exists (by decide) (rk_ld (by simp [RkLd])) (ompRk_good (by decide)) mem⟩

/-- `k = 0`, `beta = 3`: an execution exists and it does not scale `C` (an element equal to
1 stays 1). -/
example : ∃ (mem mem' : Buf × Nat → ℤ),
    Exec (drvEnv 2 (rkDims .noTrans 5 0 1) (ld2 6 7)) (zrk 2 false id .lower .noTrans 5 0 2 3) mem mem' ∧
    mem (.usr 1, 0) = 1 ∧ mem' (.usr 1, 0) = 1 := by
  obtain ⟨mem', h⟩ := driver_exists (α := ℤ) (nb := 2) (dims := rkDims .noTrans 5 0 1) (ld := ld2 6 7)
    (ins := [0, 1]) (outs := [1]) (by decide) (rk_ld (by simp [RkLd]))
    (ompRk_good (h := false) (re := id) (u := .lower) (t := .noTrans) (n := 5) (k := 0) (alpha := 2)
      (beta := 3) (by decide)) (fun _ => 1)
  have h' : Exec (drvEnv 2 (rkDims .noTrans 5 0 1) (ld2 6 7)) (zrk 2 false id .lower .noTrans 5 0 2 3)
      (fun _ => 1) mem' := h
  exact ⟨_, mem', h', rfl, C09_zero_inner_ignored (by decide) false id .lower .noTrans 5 6 7
    (by simp [RkLd]) 2 3 _ _ h' 0⟩

example (mem : Buf × Nat → ℤ) : R2kLd .trans 5 3 6 7 8 ∧ ∃ mem',
    Exec (drvEnv 2 (rkDims .trans 5 3 2) (ld3 6 7 8)) (zr2k 2 false id .upper .trans 5 3 2 3) mem mem' :=
  ⟨by simp [R2kLd], driver_exists (by decide) (r2k_ld (by simp [R2kLd])) (ompR2k_good (by decide)) mem⟩

example (mem : Buf × Nat → ℤ) : SymmLd .right 5 3 6 7 8 ∧ ∃ mem',
    Exec (drvEnv 2 (symmDims .right 5 3) (ld3 6 7 8)) (zsymm 2 false id .right .upper 5 3 2 3) mem mem' :=
  ⟨by simp [SymmLd, symOrd], driver_exists (by decide) (symm_ld (by simp [SymmLd, symOrd]))
    (ompSymm_good (by decide)) mem⟩

end Verif.Props

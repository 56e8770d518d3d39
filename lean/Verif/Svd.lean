/-
Singular values of matrices as Mathlib defines them, through the characteristic polynomial of `Mᴴ * M`.
-/
import Verif.Ge2gbBand
import Mathlib.Analysis.InnerProductSpace.SingularValues
import Mathlib.Analysis.Matrix.Spectrum
import Mathlib.LinearAlgebra.Matrix.Charpoly.Basic

namespace Verif.Svd

open Matrix Polynomial Verif.Qr

universe v

section
variable {𝕜 : Type v} [RCLike 𝕜] {m n : Nat}

/-- The `i`-th singular value of a matrix, counted from 0 in decreasing order. -/
noncomputable def sval (M : Matrix (Fin m) (Fin n) 𝕜) (i : Nat) : ℝ := (toEuclideanLin M).singularValues i

theorem gram_lin (M : Matrix (Fin m) (Fin n) 𝕜) :
    LinearMap.adjoint (toEuclideanLin M) ∘ₗ toEuclideanLin M = toEuclideanLin (Mᴴ * M) := by
  rw [← toEuclideanLin_conjTranspose_eq_adjoint]
  exact (toLpLin_mul_same 2 Mᴴ M).symm

theorem eig_eq {E : Type*} [NormedAddCommGroup E] [InnerProductSpace 𝕜 E] [FiniteDimensional 𝕜 E] {N : Nat}
    (hN : Module.finrank 𝕜 E = N) {S T : E →ₗ[𝕜] E} (e : S = T) (hS : S.IsSymmetric) (hT : T.IsSymmetric) :
    hS.eigenvalues hN = hT.eigenvalues hN := by subst e; rfl

theorem sval_sq (M : Matrix (Fin m) (Fin n) 𝕜) (i : Fin (Fintype.card (Fin n))) :
    sval M i ^ 2 = (isHermitian_conjTranspose_mul_self M).eigenvalues₀ i := by
  unfold sval IsHermitian.eigenvalues₀
  rw [LinearMap.sq_singularValues_fin (toEuclideanLin M) finrank_euclideanSpace i]
  exact congrFun (eig_eq _ (gram_lin M) _ _) i

theorem sval_nonneg (M : Matrix (Fin m) (Fin n) 𝕜) (i : Nat) : 0 ≤ sval M i := LinearMap.singularValues_nonneg _ _

theorem sval_anti (M : Matrix (Fin m) (Fin n) 𝕜) : Antitone (sval M) := LinearMap.singularValues_antitone _

theorem gram_charpoly (M : Matrix (Fin m) (Fin n) 𝕜) :
    (Mᴴ * M).charpoly = ∏ j ∈ Finset.range n, (X - C (((sval M j) ^ 2 : ℝ) : 𝕜)) := by
  have h := (isHermitian_conjTranspose_mul_self M).roots_charpoly_eq_eigenvalues₀
  have h1 := (isHermitian_conjTranspose_mul_self M).splits_charpoly
  have h2 := h1.eq_prod_roots_of_monic (charpoly_monic _)
  rw [h2, h, Multiset.map_map, Finset.prod_range fun j => X - C (((sval M j) ^ 2 : ℝ) : 𝕜)]
  show ∏ i : Fin (Fintype.card (Fin n)), (X - C (((isHermitian_conjTranspose_mul_self M).eigenvalues₀ i : ℝ) : 𝕜)) = _
  rw [← Fin.prod_congr' _ (Fintype.card_fin n)]
  refine Finset.prod_congr rfl fun i _ => ?_
  rw [← sval_sq]
  rfl

theorem sval_of_charpoly (M : Matrix (Fin m) (Fin n) 𝕜) {σ : Nat → ℝ} (ha : Antitone σ) (h0 : ∀ i, 0 ≤ σ i)
    (h : (Mᴴ * M).charpoly = ∏ j ∈ Finset.range n, (X - C (((σ j) ^ 2 : ℝ) : 𝕜))) {i : Nat} (hi : i < n) : sval M i = σ i := by
  have hs := (isHermitian_conjTranspose_mul_self M).sort_roots_charpoly_eq_eigenvalues₀
  have hr : (Mᴴ * M).charpoly.roots = Multiset.map (fun j => (((σ j) ^ 2 : ℝ) : 𝕜)) (Finset.range n).val := by
    rw [h, Polynomial.roots_prod]
    · simp only [Polynomial.roots_X_sub_C, Multiset.bind_singleton]
    · exact Finset.prod_ne_zero_iff.mpr fun j _ => Polynomial.X_sub_C_ne_zero _
  rw [hr, Multiset.map_map] at hs
  have hl : Multiset.map (RCLike.re ∘ fun j => (((σ j) ^ 2 : ℝ) : 𝕜)) (Finset.range n).val =
      ((List.ofFn fun j : Fin (Fintype.card (Fin n)) => σ j ^ 2 : List ℝ) : Multiset ℝ) := by
    have e : (RCLike.re ∘ fun j => (((σ j) ^ 2 : ℝ) : 𝕜)) = fun j => σ j ^ 2 := by funext j; exact RCLike.ofReal_re _
    rw [e]
    show Multiset.map (fun j => σ j ^ 2) (List.range n : List Nat) = _
    rw [Multiset.map_coe, List.ofFn_eq_map, ← List.map_coe_finRange_eq_range, List.map_map]
    congr 1
    rw [Fintype.card_fin]
    rfl
  rw [hl, Multiset.coe_sort, List.mergeSort_of_pairwise] at hs
  · have := congrFun (List.ofFn_inj.mp hs) ⟨i, by rw [Fintype.card_fin]; exact hi⟩
    rw [← sval_sq] at this
    exact ((pow_left_inj₀ (h0 i) (sval_nonneg M i) two_ne_zero).mp this).symm
  · simp_rw [decide_eq_true_eq, ← List.sortedGE_iff_pairwise]
    refine Antitone.sortedGE_ofFn fun a b hab => ?_
    exact pow_le_pow_left₀ (h0 _) (ha hab) 2

/-- Unitary factors do not change the singular values. -/
theorem sval_ueq {A B : Matrix (Fin m) (Fin n) 𝕜} (h : UEq A B) {i : Nat} (hi : i < n) : sval A i = sval B i := by
  obtain ⟨Q, hQ, P, hP, e⟩ := h
  refine sval_of_charpoly A (sval_anti B) (sval_nonneg B) ?_ hi
  rw [← gram_charpoly]
  have h1 : Qᴴ * Q = 1 := mem_unitaryGroup_iff'.mp hQ
  have h2 : P * Pᴴ = 1 := mem_unitaryGroup_iff.mp hP
  have : Aᴴ * A = Pᴴ * (Bᴴ * B * P) := by
    rw [e, conjTranspose_mul, conjTranspose_mul]
    simp only [Matrix.mul_assoc]
    rw [← Matrix.mul_assoc Qᴴ Q, h1, Matrix.one_mul]
  rw [this, charpoly_mul_comm, Matrix.mul_assoc, h2, Matrix.mul_one]

/-- More rows of zeros, or more columns of zeros, do not change the singular values. -/
theorem sval_rows {k : Nat} {A : Matrix (Fin m) (Fin n) 𝕜} {B : Matrix (Fin k) (Fin n) 𝕜} (hk : k ≤ m)
    (h : ∀ r c, A r c = if hr : r.1 < k then B ⟨r.1, hr⟩ c else 0) {i : Nat} (hi : i < n) : sval A i = sval B i := by
  refine sval_of_charpoly A (sval_anti B) (sval_nonneg B) ?_ hi
  rw [← gram_charpoly]
  congr 1
  ext c c'
  rw [mul_apply, mul_apply]
  simp only [conjTranspose_apply]
  obtain ⟨g, hg⟩ : ∃ g : Nat → 𝕜, g = fun r => if hr : r < k then star (B ⟨r, hr⟩ c) * B ⟨r, hr⟩ c' else 0 := ⟨_, rfl⟩
  have e1 : ∀ r : Fin m, star (A r c) * A r c' = g r.1 := by
    intro r
    rw [h, h, hg]
    show _ = dite _ _ _
    split_ifs <;> simp
  have e2 : ∀ r : Fin k, star (B r c) * B r c' = g r.1 := by
    intro r
    rw [hg]
    show _ = dite _ _ _
    rw [dif_pos r.2]
  rw [Finset.sum_congr rfl fun r _ => e1 r, Finset.sum_congr rfl fun r _ => e2 r, ← Finset.sum_range g, ← Finset.sum_range g]
  refine (Finset.sum_subset (Finset.range_mono hk) fun r _ hr => ?_).symm
  rw [hg]
  exact dif_neg (by simpa using hr)

theorem sval_conj_square (B : Matrix (Fin n) (Fin n) 𝕜) {i : Nat} (hi : i < n) : sval Bᴴ i = sval B i := by
  refine sval_of_charpoly _ (sval_anti B) (sval_nonneg B) ?_ hi
  rw [← gram_charpoly, conjTranspose_conjTranspose, charpoly_mul_comm]

theorem sval_le_rank {A : Matrix (Fin m) (Fin n) 𝕜} (h : m ≤ n) {i : Nat} (hi : i < m) : sval A i = sval Aᴴ i := by
  classical
  refine (sval_of_charpoly A (σ := fun j => if j < m then sval Aᴴ j else 0) ?_ ?_ ?_ (by omega)).trans (if_pos hi)
  · intro a b hab
    simp only
    split_ifs with h1 h2
    · exact sval_anti _ hab
    · omega
    · exact sval_nonneg _ _
    · exact le_rfl
  · intro i
    split_ifs
    · exact sval_nonneg _ _
    · exact le_rfl
  · have h1 := charpoly_mul_comm_of_le Aᴴ A (by simpa using h)
    have h2 := gram_charpoly Aᴴ
    rw [conjTranspose_conjTranspose] at h2
    rw [h1, h2, Fintype.card_fin, Fintype.card_fin]
    rw [← Finset.prod_range_mul_prod_Ico _ h, mul_comm]
    congr 1
    · refine Finset.prod_congr rfl fun j hj => ?_
      rw [if_pos (Finset.mem_range.mp hj)]
    · rw [Finset.prod_congr rfl (g := fun _ => (X : 𝕜[X])), Finset.prod_const, Nat.card_Ico]
      intro j hj
      rw [if_neg (by have := (Finset.mem_Ico.mp hj).1; omega)]
      simp

theorem sval_cols {k : Nat} {A : Matrix (Fin m) (Fin n) 𝕜} {B : Matrix (Fin m) (Fin k) 𝕜} (hm : m ≤ k) (hk : k ≤ n)
    (h : ∀ r c, A r c = if hc : c.1 < k then B r ⟨c.1, hc⟩ else 0) {i : Nat} (hi : i < m) : sval A i = sval B i := by
  rw [sval_le_rank (by omega) hi, sval_le_rank hm hi]
  refine sval_rows hk (fun r c => ?_) hi
  rw [conjTranspose_apply, h]
  split_ifs
  · rfl
  · simp

/-- A real matrix has the same singular values as a matrix over `𝕜`. -/
theorem sval_real (B : Matrix (Fin m) (Fin n) ℝ) {i : Nat} (hi : i < n) : sval (B.map (RCLike.ofReal : ℝ → 𝕜)) i = sval B i := by
  refine sval_of_charpoly _ (sval_anti B) (sval_nonneg B) ?_ hi
  have e : (B.map (RCLike.ofReal : ℝ → 𝕜))ᴴ * B.map (RCLike.ofReal : ℝ → 𝕜) = (Bᴴ * B).map (algebraMap ℝ 𝕜) := by
    rw [Matrix.map_mul]
    congr 1
    ext r c
    simp [conjTranspose_apply]
  rw [e, charpoly_map, gram_charpoly, Polynomial.map_prod]
  refine Finset.prod_congr rfl fun j _ => ?_
  simp

end

end Verif.Svd

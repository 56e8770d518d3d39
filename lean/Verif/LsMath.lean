/-
Least squares and minimum norm solutions from a factorization `A = Q R`.
-/
import Mathlib.LinearAlgebra.UnitaryGroup
import Mathlib.LinearAlgebra.Matrix.ToLinearEquiv
import Mathlib.LinearAlgebra.Matrix.Block
import Mathlib.Analysis.RCLike.Basic
import Mathlib.Algebra.Order.BigOperators.Group.Finset

namespace Verif.Ls

open Finset Matrix

universe v
variable {𝕜 : Type v} [RCLike 𝕜]

/-- `x` minimizes the Euclidean norm of `b - A x`. -/
def IsLeastSquares {m n : Nat} (A : Matrix (Fin m) (Fin n) 𝕜) (b : Fin m → 𝕜) (x : Fin n → 𝕜) : Prop :=
  ∀ y : Fin n → 𝕜, ∑ i, ‖b i - (A *ᵥ x) i‖ ^ 2 ≤ ∑ i, ‖b i - (A *ᵥ y) i‖ ^ 2

/-- `x` solves `A x = b` and has the least Euclidean norm of all solutions. -/
def IsMinNorm {m n : Nat} (A : Matrix (Fin m) (Fin n) 𝕜) (b : Fin m → 𝕜) (x : Fin n → 𝕜) : Prop :=
  A *ᵥ x = b ∧ ∀ y : Fin n → 𝕜, A *ᵥ y = b → ∑ i, ‖x i‖ ^ 2 ≤ ∑ i, ‖y i‖ ^ 2

/-- The columns of `A` are linearly independent. -/
def FullColRank {m n : Nat} (A : Matrix (Fin m) (Fin n) 𝕜) : Prop :=
  ∀ y : Fin n → 𝕜, A *ᵥ y = 0 → y = 0

theorem norm_sq_dot {m : Nat} (x : Fin m → 𝕜) : ((∑ i, ‖x i‖ ^ 2 : ℝ) : 𝕜) = star x ⬝ᵥ x := by
  unfold dotProduct
  push_cast
  exact sum_congr rfl fun i _ => (RCLike.conj_mul (x i)).symm

theorem unitary_norm {m : Nat} {Q : Matrix (Fin m) (Fin m) 𝕜} (hQ : Q ∈ unitaryGroup (Fin m) 𝕜) (x : Fin m → 𝕜) :
    ∑ i, ‖(Q *ᵥ x) i‖ ^ 2 = ∑ i, ‖x i‖ ^ 2 := by
  have hu1 : Qᴴ * Q = 1 := (mem_unitaryGroup_iff').mp hQ
  have : ((∑ i, ‖(Q *ᵥ x) i‖ ^ 2 : ℝ) : 𝕜) = ((∑ i, ‖x i‖ ^ 2 : ℝ) : 𝕜) := by
    rw [norm_sq_dot, norm_sq_dot, star_mulVec, ← dotProduct_mulVec, mulVec_mulVec, hu1, one_mulVec]
  exact_mod_cast this

section
variable {m n : Nat} {Q : Matrix (Fin m) (Fin m) 𝕜} {R : Matrix (Fin m) (Fin n) 𝕜}

/-- The leading square block. -/
def top (hn : n ≤ m) (R : Matrix (Fin m) (Fin n) 𝕜) : Matrix (Fin n) (Fin n) 𝕜 := R.submatrix (Fin.castLE hn) id

theorem top_det (hn : n ≤ m) (hR : ∀ (i : Fin m) (j : Fin n), (j : Nat) < i → R i j = 0) :
    (top hn R).det = ∏ j : Fin n, R (Fin.castLE hn j) j :=
  det_of_isUpperTriangular fun i j h => hR _ _ h

theorem mulVec_low (hR : ∀ (i : Fin m) (j : Fin n), (j : Nat) < i → R i j = 0) (y : Fin n → 𝕜) {i : Fin m} (hi : n ≤ i) :
    (R *ᵥ y) i = 0 := by
  unfold mulVec dotProduct
  exact sum_eq_zero fun j _ => by
    show R i j * y j = 0
    rw [hR i j (by omega), zero_mul]

theorem mulVec_top (hn : n ≤ m) (y : Fin n → 𝕜) (i : Fin n) : (R *ᵥ y) (Fin.castLE hn i) = (top hn R *ᵥ y) i := rfl

theorem det_ne (hn : n ≤ m) (hR : ∀ (i : Fin m) (j : Fin n), (j : Nat) < i → R i j = 0) (hA : FullColRank (Q * R)) : (top hn R).det ≠ 0 := by
  intro h
  obtain ⟨v, hv, h0⟩ := exists_mulVec_eq_zero_iff.mpr h
  refine hv (hA v ?_)
  rw [← mulVec_mulVec]
  have : R *ᵥ v = 0 := by
    funext i
    by_cases hi : n ≤ i
    · exact mulVec_low hR v hi
    · have := mulVec_top (R := R) hn v ⟨i, by omega⟩
      rw [h0] at this
      exact this
  rw [this, mulVec_zero]

/-- Full rank makes the diagonal of the triangular factor regular. -/
theorem diag_ne (hn : n ≤ m) (hR : ∀ (i : Fin m) (j : Fin n), (j : Nat) < i → R i j = 0) (hA : FullColRank (Q * R)) (j : Fin n) :
    R (Fin.castLE hn j) j ≠ 0 := by
  have := det_ne hn hR hA
  rw [top_det hn hR] at this
  exact fun h => this (prod_eq_zero (mem_univ j) h)

theorem res_norm (hQ : Q ∈ unitaryGroup (Fin m) 𝕜) (b : Fin m → 𝕜) (y : Fin n → 𝕜) :
    ∑ i, ‖b i - ((Q * R) *ᵥ y) i‖ ^ 2 = ∑ i, ‖(Qᴴ *ᵥ b) i - (R *ᵥ y) i‖ ^ 2 := by
  have hu2 : Q * Qᴴ = 1 := (mem_unitaryGroup_iff).mp hQ
  rw [← unitary_norm hQ (fun i => (Qᴴ *ᵥ b) i - (R *ᵥ y) i)]
  have : (Q *ᵥ fun i => (Qᴴ *ᵥ b) i - (R *ᵥ y) i) = fun i => b i - ((Q * R) *ᵥ y) i := by
    show Q *ᵥ (Qᴴ *ᵥ b - R *ᵥ y) = b - (Q * R) *ᵥ y
    rw [mulVec_sub, mulVec_mulVec, hu2, one_mulVec, mulVec_mulVec]
  rw [this]

/-- The least squares solution, and the norm of its residual. -/
theorem ls_over (hn : n ≤ m) (hQ : Q ∈ unitaryGroup (Fin m) 𝕜) (hR : ∀ (i : Fin m) (j : Fin n), (j : Nat) < i → R i j = 0)
    {b : Fin m → 𝕜} {x : Fin n → 𝕜}
    (hx : ∀ i : Fin n, (R *ᵥ x) (Fin.castLE hn i) = (Qᴴ *ᵥ b) (Fin.castLE hn i)) :
    IsLeastSquares (Q * R) b x ∧
    ∑ i, ‖b i - ((Q * R) *ᵥ x) i‖ ^ 2 = ∑ i : Fin m, if n ≤ i then ‖(Qᴴ *ᵥ b) i‖ ^ 2 else 0 := by
  have e : ∑ i, ‖b i - ((Q * R) *ᵥ x) i‖ ^ 2 = ∑ i : Fin m, if n ≤ i then ‖(Qᴴ *ᵥ b) i‖ ^ 2 else 0 := by
    rw [res_norm hQ]
    refine sum_congr rfl fun i _ => ?_
    by_cases hi : n ≤ i
    · rw [if_pos hi, mulVec_low hR x hi, sub_zero]
    · have := hx ⟨i, by omega⟩
      rw [if_neg hi, show (R *ᵥ x) i = (Qᴴ *ᵥ b) i from this, sub_self]
      simp
  refine ⟨fun y => ?_, e⟩
  rw [e, res_norm hQ]
  refine sum_le_sum fun i _ => ?_
  by_cases hi : n ≤ i
  · rw [if_pos hi, mulVec_low hR y hi, sub_zero]
  · rw [if_neg hi]; positivity

/-- The minimum norm solution. -/
theorem ls_under (hn : n ≤ m) (hQ : Q ∈ unitaryGroup (Fin m) 𝕜) (hR : ∀ (i : Fin m) (j : Fin n), (j : Nat) < i → R i j = 0)
    (hA : FullColRank (Q * R)) {b : Fin n → 𝕜} {w : Fin m → 𝕜} (hw : ∀ i : Fin m, n ≤ i → w i = 0) (hb : Rᴴ *ᵥ w = b) :
    IsMinNorm (Q * R)ᴴ b (Q *ᵥ w) := by
  have hu1 : Qᴴ * Q = 1 := (mem_unitaryGroup_iff').mp hQ
  have hu2 : Q * Qᴴ = 1 := (mem_unitaryGroup_iff).mp hQ
  have hQ' : Qᴴ ∈ unitaryGroup (Fin m) 𝕜 := Unitary.star_mem hQ
  refine ⟨?_, fun y hy => ?_⟩
  · rw [conjTranspose_mul, mulVec_mulVec, Matrix.mul_assoc, hu1, Matrix.mul_one, hb]
  · rw [unitary_norm hQ, ← unitary_norm hQ' y]
    have hz : Rᴴ *ᵥ (Qᴴ *ᵥ y - w) = 0 := by
      rw [mulVec_sub, mulVec_mulVec, ← conjTranspose_mul, hy, hb, sub_self]
    have h0 : (fun j : Fin n => (Qᴴ *ᵥ y - w) (Fin.castLE hn j)) = 0 := by
      have hd : (top hn R)ᴴ.det ≠ 0 := by
        rw [det_conjTranspose]
        exact star_ne_zero.mpr (det_ne hn hR hA)
      refine eq_zero_of_mulVec_eq_zero hd ?_
      funext j
      have := congrFun hz j
      refine Eq.trans ?_ this
      unfold mulVec dotProduct
      rw [← Finset.sum_subset (Finset.subset_univ (univ.image (Fin.castLE hn)))]
      · rw [Finset.sum_image (fun a _ b _ h => Fin.castLE_injective hn h)]
        rfl
      · intro i _ hi
        show star (R i j) * _ = 0
        rw [hR i j, star_zero, zero_mul]
        by_contra hc
        exact hi (mem_image.mpr ⟨⟨i, by omega⟩, mem_univ _, rfl⟩)
    refine sum_le_sum fun i _ => ?_
    by_cases hi : n ≤ i
    · rw [hw i hi]; simp
    · have := congrFun h0 ⟨i, by omega⟩
      have e : (Qᴴ *ᵥ y) i - w i = 0 := this
      rw [sub_eq_zero.mp e]

end

end Verif.Ls

/-
Failure of the two factorizations for indefinite matrices: if Aasen's factorization succeeds and `A` is nonsingular then the
factorization of `T` succeeds.
-/
import Verif.HesvCore
import Verif.AasenCode
import Mathlib.LinearAlgebra.Matrix.Block
import Mathlib.LinearAlgebra.Matrix.ToLinearEquiv

set_option linter.unusedSectionVars false

namespace Verif.Aasen

open Verif.Tile Verif.Layout Verif.LU Verif.Panel Verif.Heswp Finset

universe u v w

section
variable {α : Type v} [Field α]

/-- The matrix of order `N`. -/
def mOf (N : Nat) (A : Nat → Nat → α) : Matrix (Fin N) (Fin N) α := Matrix.of fun i j => A i j

theorem indep_det {N : Nat} {A : Nat → Nat → α} : ColsIndep N N A ↔ (mOf N A).det ≠ 0 := by
  rw [← not_iff_not, not_not, ← Matrix.exists_mulVec_eq_zero_iff]
  have key : ∀ x : Nat → α, (∀ r, r < N → ∑ c ∈ range N, A r c * x c = 0) ↔ Matrix.mulVec (mOf N A) (fun c : Fin N => x c) = 0 := by
    intro x
    constructor
    · intro h
      funext r
      have := h r r.2
      rw [Finset.sum_range] at this
      exact this
    · intro h r hr
      have := congrFun h ⟨r, hr⟩
      rw [Finset.sum_range]
      exact this
  constructor
  · intro h
    unfold ColsIndep at h
    push Not at h
    obtain ⟨x, h1, c, hc, h2⟩ := h
    exact ⟨fun c => x c, fun h0 => h2 (congrFun h0 ⟨c, hc⟩), (key x).mp h1⟩
  · rintro ⟨v, hv, h0⟩ hi
    apply hv
    have e : (fun c : Fin N => (fun l : Nat => if h : l < N then v ⟨l, h⟩ else 0) c) = v := by
      funext c
      simp
    have := hi (fun l => if h : l < N then v ⟨l, h⟩ else 0) ((key _).mpr (by rw [e]; exact h0))
    funext c
    have h1 := this c c.2
    simpa using h1

variable [StarRing α]

/-- If `P*A*P' = L*T*L'` with `L` unit lower triangular then `T` is nonsingular exactly if `A` is. -/
theorem indep_congr {N : Nat} {A L T : Nat → Nat → α} {π : Equiv.Perm Nat} (hπ : ∀ i, i < N → π i < N)
    (heq : ∀ r c, r < N → c < N → A (π r) (π c) = ∑ g ∈ range N, ∑ h ∈ range N, L r g * T g h * star (L c h))
    (hup : ∀ r g, r < N → g < N → r ≤ g → L r g = if r = g then 1 else 0) : ColsIndep N N A ↔ ColsIndep N N T := by
  obtain ⟨f, hf⟩ : ∃ f : Fin N → Fin N, ∀ i, (f i : Nat) = π i := ⟨fun i => ⟨π i, hπ i i.2⟩, fun _ => rfl⟩
  have hinj : Function.Injective f := fun i j h => by
    have := congrArg Fin.val h
    rw [hf, hf] at this
    exact Fin.ext (π.injective this)
  let e : Fin N ≃ Fin N := Equiv.ofBijective f (Finite.injective_iff_bijective.mp hinj)
  have hA : (mOf N A).submatrix e e = mOf N L * mOf N T * (mOf N L).conjTranspose := by
    ext r c
    show A (f r) (f c) = _
    rw [hf, hf, heq r c r.2 c.2, Matrix.mul_apply]
    simp only [Matrix.mul_apply, Finset.sum_mul, Finset.sum_range]
    rw [Finset.sum_comm]
    rfl
  have hL : (mOf N L).det = 1 := by
    rw [Matrix.det_of_lowerTriangular]
    · refine Finset.prod_eq_one fun i _ => ?_
      show L i i = 1
      rw [hup i i i.2 i.2 le_rfl, if_pos rfl]
    · intro i j hij
      have hij : i < j := hij
      show L i j = 0
      rw [hup i j i.2 j.2 (le_of_lt hij), if_neg]
      intro h
      have : i.val < j.val := hij
      omega
  have hd : (mOf N A).det = (mOf N T).det := by
    have := congrArg Matrix.det hA
    rw [Matrix.det_submatrix_equiv_self, Matrix.det_mul, Matrix.det_mul, Matrix.det_conjTranspose, hL, star_one, one_mul, mul_one] at this
    exact this
  rw [indep_det, indep_det, hd]

end

section
variable {M : Type u} {α : Type v} [Field α] [StarRing α] [DecidableEq α] [DecidableEq M] {γ : Type w} [LinearOrder γ]
variable {E : IntCode α} {mag : α → γ} {dv : α → α → α} {big : α → Bool} {ib mpt : Nat} {z : AC} {Z : AM M} {Q : TMat M} {env : M → MatEnv}

/-- If Aasen's factorization succeeds and `A` is nonsingular then both factorizations succeed. -/
theorem hetrf_codes (hz : z.OK) (hbN : z.b ≤ z.N) (hZ : AMOK z Z) (hF : AFit env z Z) (hg : GbOK z.b z.N z.b z.b Z.T Q ib mpt)
    (hmag : IsMag mag) (hdv : IsDiv dv) {rg : Bool} {s : Store (M × Nat × Nat) α}
    (hS : AStart env E z Z s)
    (hT : ∀ g h, g < z.N → h < z.N → bTile none z.b z.b z.b (g / z.b) (h / z.b) → ¬ (g / z.b ≤ h / z.b + 1 ∧ h / z.b ≤ g / z.b + 1) → Z.T.el s g h = 0)
    (hI : ColsIndep z.N z.N (herm (Z.A.el s))) (hc1 : ∀ i, tcode (pzhetrfAasen E mag dv big z Z) s i = 0) :
    ∀ i, tcode (hetrfL rg E mag dv big ib mpt z Z Q) s i = 0 := by
  have hb := hz.b
  obtain ⟨s1, hs1⟩ : ∃ s1, s1 = texec (tasks (pzhetrfAasen E mag dv big z Z)) s := ⟨_, rfl⟩
  have hD := aasen_store hz hbN hZ hF hmag hdv hS hc1
  rw [← hs1] at hD
  have hX : ∀ r c, r < z.N → c < z.N → gbX z.b z.b z.b Z.T s1 r c = triT z.b (Z.T.el s1) r c := fun r c hr hc =>
    gbX_triT hb (fun g h hg hh hB hn => by rw [hD.far g h hg hh hB hn]; exact hT g h hg hh hB hn) hr hc
  obtain ⟨T0, hT0⟩ : ∃ T0 : Nat → Nat → α, T0 = fun r c => if r ≤ c + z.b ∧ c ≤ r + z.b then triT z.b (Z.T.el s1) r c else 0 := ⟨_, rfl⟩
  have eT : ∀ r c, r < z.N → c < z.N → T0 r c = triT z.b (Z.T.el s1) r c := by
    intro r c hr hc
    rw [hT0]
    simp only
    split
    · rfl
    · exact (hD.band r c hr hc (by omega)).symm
  have hTb : Banded z.b z.b T0 := by
    intro r c h
    rw [hT0]
    exact if_neg (by omega)
  have hTI : ColsIndep z.N z.N T0 := by
    refine (indep_congr (π := perm (pv E Z.P s1) 0 z.N) (fun i hi => ?_) (fun r c hr hc => ?_) hD.up).mp hI
    · refine (perm_range (m := z.N) (fun i _ hi => ?_) (Nat.zero_le i) hi).2
      have := hD.rng i (by omega)
      unfold pv; omega
    · rw [hD.eq r c hr hc]
      refine sum_congr rfl fun g hg => sum_congr rfl fun h hh => ?_
      rw [mem_range] at hg hh
      rw [eT g h hg hh]
  have hc2 : ∀ i, tcode (pzgbtrf rg E mag dv big ib mpt Z.T Q) s1 i = 0 := by
    by_contra hc
    push Not at hc
    classical
    obtain ⟨i, hi, hmin⟩ : ∃ i, tcode (pzgbtrf rg E mag dv big ib mpt Z.T Q) s1 i ≠ 0 ∧
        ∀ j, j < i → tcode (pzgbtrf rg E mag dv big ib mpt Z.T Q) s1 j = 0 :=
      ⟨Nat.find hc, Nat.find_spec hc, fun j hj => by have := Nat.find_min hc hj; exact not_not.mp this⟩
    obtain ⟨q, hq, -, hf⟩ := pzgbtrf_fail hdv hmag hg rg (Or.inl hTb) s1 (fun r c hr hc => by rw [hX r c hr hc, eT r c hr hc]) hi hmin
    exact (FailAt.cols hf).2.not_indep hq hTI
  intro i
  unfold hetrfL
  by_cases hi : i < (pzhetrfAasen E mag dv big z Z).length
  · rw [tcode_append_left _ _ _ hi]; exact hc1 i
  · obtain ⟨j, rfl⟩ := Nat.exists_eq_add_of_le (Nat.le_of_not_lt hi)
    rw [tcode_append_right, ← hs1]; exact hc2 j

end

end Verif.Aasen

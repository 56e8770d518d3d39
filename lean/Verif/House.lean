/-
Householder reflectors and the blocked column algorithm of the QR tile kernels: core_blas/core_zgeqrt.c,
core_blas/core_ztsqrt.c, core_blas/core_zttqrt.c.
-/
import Verif.QrMath
import Mathlib.Analysis.RCLike.Basic
import Mathlib.Analysis.Real.Sqrt
import Mathlib.Tactic.FieldSimp
import Mathlib.Tactic.LinearCombination

namespace Verif.Qr

open Verif.Layout Verif.Tile Finset Matrix

universe v

section
variable {𝕜 : Type v} [RCLike 𝕜]

/-! ### `zlarfg` in exact arithmetic -/

/-- The real number `beta` of LAPACK's `zlarfg` in the general case; `x2` is the squared norm of the vector. -/
noncomputable def lbeta (a : 𝕜) (x2 : ℝ) : ℝ :=
  if 0 ≤ RCLike.re a then -Real.sqrt (‖a‖ ^ 2 + x2) else Real.sqrt (‖a‖ ^ 2 + x2)

open Classical in
/-- `tau` of LAPACK's `zlarfg` (called at core_blas/core_ztsqrt.c:151, core_blas/core_zttqrt.c:155, and by `zgeqr2`). -/
noncomputable def ltau (a : 𝕜) (x2 : ℝ) : 𝕜 :=
  if x2 = 0 ∧ RCLike.im a = 0 then 0 else ((lbeta a x2 : 𝕜) - a) / (lbeta a x2 : 𝕜)

open Classical in
/-- The new first element left by `zlarfg`. -/
noncomputable def lbet (a : 𝕜) (x2 : ℝ) : 𝕜 :=
  if x2 = 0 ∧ RCLike.im a = 0 then a else (lbeta a x2 : 𝕜)

open Classical in
/-- The factor by which `zlarfg` scales the vector. -/
noncomputable def lscal (a : 𝕜) (x2 : ℝ) : 𝕜 :=
  if x2 = 0 ∧ RCLike.im a = 0 then 1 else 1 / (a - (lbeta a x2 : 𝕜))

theorem lbeta_sq (a : 𝕜) {x2 : ℝ} (hx : 0 ≤ x2) : lbeta a x2 ^ 2 = ‖a‖ ^ 2 + x2 := by
  have h : 0 ≤ ‖a‖ ^ 2 + x2 := by positivity
  unfold lbeta
  split_ifs
  · rw [neg_sq, Real.sq_sqrt h]
  · rw [Real.sq_sqrt h]

theorem lbeta_ne {a : 𝕜} {x2 : ℝ} (hx : 0 ≤ x2) (h : ¬ (x2 = 0 ∧ RCLike.im a = 0)) : lbeta a x2 ≠ 0 := by
  intro h0
  have := lbeta_sq a hx
  rw [h0] at this
  have h1 : ‖a‖ ^ 2 = 0 := by nlinarith [sq_nonneg ‖a‖]
  have h2 : x2 = 0 := by nlinarith [sq_nonneg ‖a‖]
  have h3 : a = 0 := by simpa using h1
  exact h ⟨h2, by rw [h3]; simp⟩

theorem lsub_ne {a : 𝕜} {x2 : ℝ} (hx : 0 ≤ x2) (h : ¬ (x2 = 0 ∧ RCLike.im a = 0)) : a - (lbeta a x2 : 𝕜) ≠ 0 := by
  intro h0
  have e : a = (lbeta a x2 : 𝕜) := sub_eq_zero.mp h0
  have him : RCLike.im a = 0 := by rw [e]; simp
  have hn : ‖a‖ ^ 2 = lbeta a x2 ^ 2 := by
    conv_lhs => rw [e]
    rw [RCLike.norm_ofReal, sq_abs]
  have := lbeta_sq a hx
  exact h ⟨by linarith, him⟩

theorem norm_sq_star (a : 𝕜) : (‖a‖ ^ 2 : 𝕜) = star a * a := by
  rw [RCLike.star_def, RCLike.conj_mul]

theorem lbeta_sq' (a : 𝕜) {x2 : ℝ} (hx : 0 ≤ x2) : (lbeta a x2 : 𝕜) ^ 2 = star a * a + (x2 : 𝕜) := by
  rw [← norm_sq_star]
  have := congrArg (fun x : ℝ => (x : 𝕜)) (lbeta_sq a hx)
  simpa using this

theorem star_ofReal' (x : ℝ) : star (x : 𝕜) = (x : 𝕜) := by
  rw [RCLike.star_def, RCLike.conj_ofReal]

/-- The reflector is unitary. -/
theorem larfg_unit (a : 𝕜) {x2 : ℝ} (hx : 0 ≤ x2) :
    ltau a x2 * star (ltau a x2) * (1 + lscal a x2 * star (lscal a x2) * (x2 : 𝕜)) = ltau a x2 + star (ltau a x2) := by
  unfold ltau lscal
  by_cases h : x2 = 0 ∧ RCLike.im a = 0
  · simp only [if_pos h]; simp
  · simp only [if_neg h]
    have hb : (lbeta a x2 : 𝕜) ≠ 0 := by simpa using lbeta_ne hx h
    have hs := lsub_ne hx h
    have hs' : star a - (lbeta a x2 : 𝕜) ≠ 0 := by
      intro h0
      apply hs
      have := congrArg star h0
      simpa [star_ofReal'] using this
    have e := lbeta_sq' a hx
    simp only [star_div₀, star_sub, star_ofReal', star_one]
    have hx2 : (x2 : 𝕜) = (lbeta a x2 : 𝕜) ^ 2 - star a * a := by rw [e]; ring
    rw [hx2]
    field_simp
    ring

/-- Its adjoint maps the given vector to a multiple of the first unit vector. -/
theorem larfg_ann (a : 𝕜) {x2 : ℝ} (hx : 0 ≤ x2) :
    star (ltau a x2) * (a + star (lscal a x2) * (x2 : 𝕜)) = a - lbet a x2 ∧
      (x2 ≠ 0 → lscal a x2 * (a - lbet a x2) = 1) := by
  unfold ltau lscal lbet
  by_cases h : x2 = 0 ∧ RCLike.im a = 0
  · simp only [if_pos h]
    exact ⟨by simp, fun hx => absurd h.1 hx⟩
  · simp only [if_neg h]
    have hb : (lbeta a x2 : 𝕜) ≠ 0 := by simpa using lbeta_ne hx h
    have hs := lsub_ne hx h
    have hs' : star a - (lbeta a x2 : 𝕜) ≠ 0 := by
      intro h0
      apply hs
      have := congrArg star h0
      simpa [star_ofReal'] using this
    have e := lbeta_sq' a hx
    refine ⟨?_, fun _ => by field_simp⟩
    simp only [star_div₀, star_sub, star_ofReal', star_one]
    have hx2 : (x2 : 𝕜) = (lbeta a x2 : 𝕜) ^ 2 - star a * a := by rw [e]; ring
    rw [hx2]
    field_simp
    ring

end

/-! ### Reflectors and their block form -/

section
variable {α : Type v} [CommRing α] [StarRing α]

/-- `I - tau w w^H`. -/
def refl (d : Nat) (w : Nat → α) (τ : α) : Matrix (Fin d) (Fin d) α :=
  1 - Matrix.of fun (r : Fin d) (r' : Fin d) => w r * τ * star (w r')

/-- Product of the first `i` reflectors. -/
def hprod (d : Nat) (w : Nat → Nat → α) (τ : Nat → α) (i : Nat) : Matrix (Fin d) (Fin d) α :=
  ((List.range i).map fun l => refl d (fun r => w r l) (τ l)).prod

theorem hprod_zero {d : Nat} {w : Nat → Nat → α} {τ : Nat → α} : hprod d w τ 0 = 1 := rfl

theorem hprod_succ {d : Nat} {w : Nat → Nat → α} {τ : Nat → α} {i : Nat} :
    hprod d w τ (i + 1) = hprod d w τ i * refl d (fun r => w r i) (τ i) := by
  unfold hprod
  rw [List.range_succ, List.map_append, List.prod_append]
  simp

theorem hprod_add {d : Nat} {w : Nat → Nat → α} {τ : Nat → α} {i j : Nat} :
    hprod d w τ (i + j) = hprod d w τ i * hprod d (fun r l => w r (i + l)) (fun l => τ (i + l)) j := by
  induction j with
  | zero => rw [Nat.add_zero, hprod_zero, Matrix.mul_one]
  | succ j ih => rw [← Nat.add_assoc, hprod_succ, ih, hprod_succ, Matrix.mul_assoc]

theorem hprod_congr {d : Nat} {w w' : Nat → Nat → α} {τ τ' : Nat → α} {i : Nat}
    (h : ∀ l, l < i → (∀ r, r < d → w r l = w' r l) ∧ τ l = τ' l) : hprod d w τ i = hprod d w' τ' i := by
  unfold hprod
  refine congrArg List.prod (List.map_congr_left fun l hl => ?_)
  obtain ⟨h1, h2⟩ := h l (List.mem_range.mp hl)
  unfold refl
  rw [h2]
  congr 1
  ext r r'
  simp only [Matrix.of_apply, h1 r r.2, h1 r' r'.2]

theorem hprod_unit {d : Nat} {w : Nat → Nat → α} {τ : Nat → α} {i : Nat}
    (h : ∀ l, l < i → refl d (fun r => w r l) (τ l) ∈ unitaryGroup (Fin d) α) : hprod d w τ i ∈ unitaryGroup (Fin d) α := by
  induction i with
  | zero => rw [hprod_zero]; exact one_mem _
  | succ i ih => rw [hprod_succ]; exact mul_mem (ih fun l hl => h l (by omega)) (h i (by omega))

theorem refl_unit {d : Nat} {w : Nat → α} {τ : α}
    (h : τ * star τ * (∑ l : Fin d, star (w l) * w l) = τ + star τ) : refl d w τ ∈ unitaryGroup (Fin d) α := by
  rw [Matrix.mem_unitaryGroup_iff, star_eq_conjTranspose]
  have e : (refl d w τ)ᴴ = refl d w (star τ) := by
    unfold refl
    rw [Matrix.conjTranspose_sub, Matrix.conjTranspose_one]
    congr 1
    ext r r'
    simp only [Matrix.conjTranspose_apply, Matrix.of_apply, star_mul, star_star]
    ring
  rw [e]
  unfold refl
  rw [Matrix.sub_mul, Matrix.one_mul, Matrix.mul_sub, Matrix.mul_one]
  ext r r'
  simp only [Matrix.sub_apply, Matrix.of_apply, Matrix.mul_apply]
  have : ∑ l : Fin d, w r * τ * star (w l) * (w l * star τ * star (w r')) =
      w r * star (w r') * (τ * star τ * (∑ l : Fin d, star (w l) * w l)) := by
    simp only [Finset.mul_sum]
    exact sum_congr rfl fun l _ => by ring
  rw [this, h]
  ring

theorem refl_star {d : Nat} {w : Nat → α} {τ : α} : (refl d w τ)ᴴ = refl d w (star τ) := by
  unfold refl
  rw [Matrix.conjTranspose_sub, Matrix.conjTranspose_one]
  congr 1
  ext r r'
  simp only [Matrix.conjTranspose_apply, Matrix.of_apply, star_mul, star_star]
  ring

theorem refl_mulVec {d : Nat} {w : Nat → α} {τ : α} (x : Fin d → α) (r : Fin d) :
    (refl d w τ).mulVec x r = x r - w r * (τ * ∑ l : Fin d, star (w l) * x l) := by
  unfold refl
  rw [Matrix.sub_mulVec, Matrix.one_mulVec]
  simp only [Pi.sub_apply, Matrix.mulVec, dotProduct, Matrix.of_apply, Finset.mul_sum]
  congr 1
  exact sum_congr rfl fun l _ => by ring

/-- Column `l'` of `V T`. -/
def vt (ii : Nat) (v t : Nat → Nat → α) (l' r : Nat) : α := ∑ l ∈ range (l' + 1), v r (ii + l) * t l (ii + l')

/-- `I - V T V^H` restricted to the first `i` reflectors. -/
def wyPre (d ii : Nat) (v t : Nat → Nat → α) (i : Nat) : Matrix (Fin d) (Fin d) α :=
  1 - Matrix.of fun (r : Fin d) (r' : Fin d) => ∑ l' ∈ range i, vt ii v t l' r * star (v r' (ii + l'))

theorem wyBlk_pre (d k ib : Nat) (v t : Nat → Nat → α) (b : Nat) :
    wyBlk d k ib v t b = wyPre d (b * ib) v t (tdim k ib b) := by
  unfold wyBlk wyPre
  dsimp only
  congr 1
  ext r r'
  simp only [Matrix.mul_apply, Matrix.conjTranspose_apply, Matrix.of_apply]
  rw [← Fin.sum_univ_eq_sum_range (fun l' => vt (b * ib) v t l' r * star (v r' (b * ib + l')))]
  refine sum_congr rfl fun l' _ => ?_
  congr 1
  unfold vt
  refine (Fin.sum_univ_eq_sum_range (fun l => v r (b * ib + l) * (if l ≤ (l' : Nat) then t l (b * ib + l') else 0))
    (tdim k ib b)).trans ?_
  rw [← Finset.sum_subset (s₁ := range (l' + 1)) (s₂ := range (tdim k ib b)) (f := fun l =>
    v r (b * ib + l) * (if l ≤ (l' : Nat) then t l (b * ib + l') else 0))]
  · refine (sum_congr rfl fun l hl => ?_).trans rfl
    rw [if_pos (by have := mem_range.mp hl; omega)]
  · intro l hl
    have := mem_range.mp hl
    have := l'.2
    exact mem_range.mpr (by omega)
  · intro l _ hl
    have : ¬ l ≤ (l' : Nat) := fun h => hl (mem_range.mpr (by omega))
    rw [if_neg this, mul_zero]

/-- The recurrence that fills a column of `T`: `T(0:i-1, i) = T (-tau V^H v_i)`, `T(i,i) = tau`
(core_blas/core_ztsqrt.c:182-196). -/
def TRec (d ii : Nat) (v t : Nat → Nat → α) (i : Nat) : Prop :=
  ∀ l, l < i → t l (ii + i) = ∑ p ∈ range i, if l ≤ p then
    t l (ii + p) * (-t i (ii + i) * ∑ q : Fin d, star (v q (ii + p)) * v q (ii + i)) else 0

theorem vt_rec {d ii : Nat} {v t : Nat → Nat → α} {i : Nat} (h : TRec d ii v t i) (r : Fin d) :
    vt ii v t i r = t i (ii + i) * ((wyPre d ii v t i).mulVec (fun q => v q (ii + i)) r) := by
  have e1 : (wyPre d ii v t i).mulVec (fun q => v q (ii + i)) r =
      v r (ii + i) - ∑ p ∈ range i, vt ii v t p r * ∑ q : Fin d, star (v q (ii + p)) * v q (ii + i) := by
    unfold wyPre
    rw [Matrix.sub_mulVec, Matrix.one_mulVec]
    simp only [Pi.sub_apply, Matrix.mulVec, dotProduct, Matrix.of_apply, Finset.mul_sum, Finset.sum_mul]
    rw [Finset.sum_comm]
    congr 1
    exact sum_congr rfl fun p _ => sum_congr rfl fun q _ => by ring
  rw [e1, mul_sub]
  conv_lhs => unfold vt
  rw [sum_range_succ, add_comm, mul_comm (v r (ii + i)), sub_eq_add_neg]
  congr 1
  have e2 : ∀ p ∈ range i, vt ii v t p r = ∑ l ∈ range i, if l ≤ p then v r (ii + l) * t l (ii + p) else 0 := by
    intro p hp
    unfold vt
    rw [← Finset.sum_subset (s₁ := range (p + 1)) (s₂ := range i)
      (f := fun l => if l ≤ p then v r (ii + l) * t l (ii + p) else 0)]
    · exact sum_congr rfl fun l hl => by rw [if_pos (by have := mem_range.mp hl; omega)]
    · intro l hl
      have := mem_range.mp hl
      have := mem_range.mp hp
      exact mem_range.mpr (by omega)
    · intro l _ hl
      exact if_neg fun h => hl (mem_range.mpr (by omega))
  generalize hdot : (fun p => ∑ q : Fin d, star (v q (ii + p)) * v q (ii + i)) = dot
  have hd : ∀ p, (∑ q : Fin d, star (v q (ii + p)) * v q (ii + i)) = dot p := fun p => congrFun hdot p
  have e3 : ∀ l ∈ range i, v r (ii + l) * t l (ii + i) =
      ∑ p ∈ range i, if l ≤ p then v r (ii + l) * t l (ii + p) * (-t i (ii + i) * dot p) else 0 := by
    intro l hl
    rw [h l (mem_range.mp hl), Finset.mul_sum]
    refine sum_congr rfl fun p _ => ?_
    rw [hd]
    split_ifs
    · ring
    · ring
  have e4 : ∀ p ∈ range i, vt ii v t p r * (∑ q : Fin d, star (v q (ii + p)) * v q (ii + i)) =
      ∑ l ∈ range i, if l ≤ p then v r (ii + l) * t l (ii + p) * dot p else 0 := by
    intro p hp
    rw [e2 p hp, hd, Finset.sum_mul]
    refine sum_congr rfl fun l _ => ?_
    split_ifs
    · rfl
    · ring
  rw [sum_congr rfl e3, sum_congr rfl e4, Finset.sum_comm, Finset.mul_sum, ← Finset.sum_neg_distrib]
  refine sum_congr rfl fun p _ => ?_
  rw [Finset.mul_sum, ← Finset.sum_neg_distrib]
  refine sum_congr rfl fun l _ => ?_
  split_ifs
  · ring
  · ring

theorem wyPre_prod {d ii : Nat} {v t : Nat → Nat → α} {i : Nat} (h : ∀ l, l < i → TRec d ii v t l) :
    wyPre d ii v t i = hprod d (fun r l => v r (ii + l)) (fun l => t l (ii + l)) i := by
  induction i with
  | zero =>
    rw [hprod_zero]
    unfold wyPre
    simp only [range_zero, sum_empty]
    exact sub_eq_self.mpr rfl
  | succ i ih =>
    rw [hprod_succ, ← ih fun l hl => h l (by omega)]
    have e : wyPre d ii v t (i + 1) = wyPre d ii v t i -
        Matrix.of fun (r : Fin d) (r' : Fin d) => vt ii v t i r * star (v r' (ii + i)) := by
      unfold wyPre
      rw [sub_sub]
      congr 1
      ext r r'
      simp only [Matrix.of_apply, Matrix.add_apply, sum_range_succ]
    rw [e]
    unfold refl
    rw [Matrix.mul_sub, Matrix.mul_one]
    congr 1
    ext r r'
    rw [Matrix.of_apply, vt_rec (h i (by omega)), Matrix.mul_apply]
    simp only [Matrix.mulVec, dotProduct, Matrix.of_apply, Finset.mul_sum, Finset.sum_mul]
    exact sum_congr rfl fun q _ => by ring

end

end Verif.Qr

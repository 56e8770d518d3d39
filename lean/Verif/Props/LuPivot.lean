/-
Partial pivoting in `plasma_zgetrf`: bounded multipliers and bounded growth.
-/
import Verif.Props.Lu
import Verif.LuPiv
import Verif.LUUniq
import Verif.NormKern
import Mathlib.Analysis.Complex.Basic

set_option linter.unusedSectionVars false

namespace Verif.Props

open Verif.Layout Verif.Sched Verif.Tile Verif.LU Verif.Panel Verif.Norm Finset

universe v w

section
variable {α : Type v} [Field α] [StarRing α] [DecidableEq α] {γ : Type w} [LinearOrder γ]
  {E : IntCode α} {mag : α → γ} {dv : α → α → α} {big : α → Bool} {nb ib mpt m n lda : Nat}

/-- A successful execution in terms of the tile algorithm. -/
theorem lu_success {rg : Bool} (hrg : LuMatch rg nb m n) (hdv : IsDiv dv) (hmag : IsMag mag)
    (hnb : 0 < nb) (hib : 0 < ib) (hmpt : 0 < mpt) (hl : m ≤ lda) {mem mem' : Buf × Nat → α} (h0 : min m n ≠ 0)
    (hx : ZgetrfRun rg E mag dv big nb ib mpt m n lda mem mem' 0) :
    ∃ s : Store (Buf × Nat × Nat) α,
      (∀ i, tcode (pzgetrf rg E mag dv big ib mpt (tMat nb (luDims m n) 0) (uMat nb (luDims m n) 1)) s i = 0) ∧
      (∀ r c, r < m → c < n → (tMat nb (luDims m n) 0).el s r c = arr mem 0 lda r c) ∧
      (∀ r c, r < m → c < n → arr mem' 0 lda r c =
        (tMat nb (luDims m n) 0).el (texec (tasks (pzgetrf rg E mag dv big ib mpt (tMat nb (luDims m n) 0)
          (uMat nb (luDims m n) 1))) s) r c) ∧
      (∀ i, i < min m n → ipv E mem' i = pv E (uMat nb (luDims m n) 1)
        (texec (tasks (pzgetrf rg E mag dv big ib mpt (tMat nb (luDims m n) 0) (uMat nb (luDims m n) 1))) s) i) := by
  unfold ZgetrfRun at hx
  rw [if_neg h0] at hx
  obtain ⟨mem1, st, h1, h2⟩ := hx
  have hmn : ¬ ((tMat nb (luDims m n) 0).d.m = 0 ∨ (tMat nb (luDims m n) 0).d.n = 0) := by
    show ¬ (m = 0 ∨ n = 0); omega
  unfold ompZgetrf at h1
  rw [if_neg hmn] at h1
  have hfit := lu_fit (m := m) (n := n) (lda := lda) hnb hib hmpt
  have hg := lu_good (E := E) (mag := mag) (dv := dv) (big := big) (m := m) (n := n) (lda := lda) hrg hnb hib hmpt
  have hC := pzgetrf_codeOK (E := E) (mag := mag) (dv := dv) (big := big) hfit.ok rg
  have hst : st = 0 := by
    by_contra h0
    rw [if_neg h0] at h2
    obtain ⟨s, -, i, hi, hb⟩ := gdrvC_failure hnb (lu_ld hl) lu_sq (by simp) hC (pzgetrf_chain rg) hg h1 h0
    obtain ⟨q, -, hq', -⟩ := pzgetrf_fail hdv hmag hfit.ok rg s (by rw [hi]; exact h0) hb
    rw [hi] at hq'
    have := h2.2
    omega
  subst hst
  rw [if_pos rfl] at h2
  obtain ⟨-, hA, hF⟩ := lu_region2 hnb hl h2
  obtain ⟨s, hin, -, hc, -, hout, htile⟩ := gdrvC_success hnb (lu_ld hl) lu_sq (by simp) (by simp) (by simp)
    lu_onTiles hC hg h1
  refine ⟨s, hc, fun r c hr hc' => hin 0 (by simp) r c hr hc' trivial, fun r c hr hc' => ?_, fun i hi => ?_⟩
  · rw [hA r c hr hc']; exact htile 0 rfl r c hr hc'
  · unfold ipv pv
    rw [hF 1 i (by simp), ← hout 1 (by simp) i 0 hi (by show 0 < 1; decide), Nat.zero_mul, Nat.add_zero]

/-- **C57.** In every execution of `plasma_zgetrf` that returns 0, each stored multiplier, times the
pivot of its column, is no larger than the pivot: the pivot was an entry of largest magnitude in
its column when the column was eliminated, whatever the tile size, the inner block size and the
number of panel threads.  (Matching of `depend` items as in C22.) -/
theorem C57_pivots_partial {rg : Bool} (hrg : LuMatch rg nb m n) (hdv : IsDiv dv) (hmag : IsMag mag)
    (hnb : 0 < nb) (hib : 0 < ib) (hmpt : 0 < mpt) (hl : m ≤ lda) (mem mem' : Buf × Nat → α)
    (hx : ZgetrfRun rg E mag dv big nb ib mpt m n lda mem mem' 0) :
    ∀ c r, c < min m n → c < r → r < m →
      mag (arr mem' 0 lda r c * arr mem' 0 lda c c) ≤ mag (arr mem' 0 lda c c) := by
  intro c r hc' hcr hr
  obtain ⟨s, hc, -, hA', -⟩ := lu_success hrg hdv hmag hnb hib hmpt hl (by omega) hx
  have hd := pzgetrf_dom hdv hmag (lu_fit (m := m) (n := n) (lda := lda) hnb hib hmpt).ok rg s hc
  rw [hA' r c hr (by omega), hA' c c (by omega) (by omega)]
  exact hd c hc' r hcr hr

/-- The pivots and the factors returned, as a factorization with bounded multipliers. -/
theorem lu_pivLU {rg : Bool} (hrg : LuMatch rg nb m n) (hdv : IsDiv dv) (hmag : IsMag mag)
    (hnb : 0 < nb) (hib : 0 < ib) (hmpt : 0 < mpt) (hl : m ≤ lda) {mem mem' : Buf × Nat → α}
    (hx : ZgetrfRun rg E mag dv big nb ib mpt m n lda mem mem' 0) :
    PivLU mag m n (arr mem 0 lda) (ipv E mem') (arr mem' 0 lda) := by
  obtain ⟨h1, h2, h3, -⟩ := C22_getrf_partial hrg hdv hmag hnb hib hmpt hl mem mem' hx
  refine ⟨fun i hi => (h1 i hi).2, fun r c hr hc => ?_, h3,
    C57_pivots_partial hrg hdv hmag hnb hib hmpt hl mem mem' hx⟩
  exact (perm_interch _ _ _ r c).symm.trans ((h2 r c hr hc).trans (luE_prod _ (m := m) (n := n) hr hc).symm)

variable {rg rg' : Bool} {E' : IntCode α} {dv' : α → α → α} {big' : α → Bool} {nb' ib' mpt' lda' : Nat}

/-- **C58.** The value returned by `plasma_zgetrf` is a function of the matrix: it depends neither
on the tile size, the inner block size and the number of panel threads, nor on the leading
dimension, nor on the order in which the tasks were executed. -/
theorem C58_status_partial (hrg : LuMatch rg nb m n) (hrg' : LuMatch rg' nb' m n) (hdv : IsDiv dv)
    (hdv' : IsDiv dv') (hmag : IsMag mag) (hnb : 0 < nb) (hib : 0 < ib) (hmpt : 0 < mpt) (hl : m ≤ lda)
    (hnb' : 0 < nb') (hib' : 0 < ib') (hmpt' : 0 < mpt') (hl' : m ≤ lda') (mem1 mem2 mem1' mem2' : Buf × Nat → α)
    (ret1 ret2 : Int) (hA : ∀ r c, r < m → c < n → arr mem1 0 lda r c = arr mem2 0 lda' r c)
    (hx1 : ZgetrfRun rg E mag dv big nb ib mpt m n lda mem1 mem1' ret1)
    (hx2 : ZgetrfRun rg' E' mag dv' big' nb' ib' mpt' m n lda' mem2 mem2' ret2) : ret1 = ret2 := by
  obtain ⟨a1, a2⟩ := C43_getrf_singular_partial hrg hdv hmag hnb hib hmpt hl mem1 mem1' ret1 hx1
  obtain ⟨b1, b2⟩ := C43_getrf_singular_partial hrg' hdv' hmag hnb' hib' hmpt' hl' mem2 mem2' ret2 hx2
  have hci : ∀ q, q ≤ n → (ColsIndep m q (arr mem1 0 lda) ↔ ColsIndep m q (arr mem2 0 lda')) := by
    intro q hq
    refine ⟨fun h x hx => h x fun r hr => ?_, fun h x hx => h x fun r hr => ?_⟩
    · rw [← hx r hr]
      refine Finset.sum_congr rfl fun c hc => ?_
      rw [mem_range] at hc
      rw [hA r c hr (by omega)]
    · rw [← hx r hr]
      refine Finset.sum_congr rfl fun c hc => ?_
      rw [mem_range] at hc
      rw [hA r c hr (by omega)]
  by_cases h0 : ret1 = 0
  · rw [h0, b1.mpr ((hci _ (by omega)).mp (a1.mp h0))]
  · have h0' : ret2 ≠ 0 := fun h => h0 (a1.mpr ((hci _ (by omega)).mpr (b1.mp h)))
    obtain ⟨q, hq, e1, c1, d1, -⟩ := a2 h0
    obtain ⟨q', hq', e2, c2, d2, -⟩ := b2 h0'
    have : q = q' := by
      rcases Nat.lt_trichotomy q q' with h | h | h
      · exact absurd ((hci _ (by omega)).mpr c2) (d1.not_indep h)
      · exact h
      · exact absurd ((hci _ (by omega)).mp c1) (d2.not_indep h)
    rw [e1, e2, this]

/-- **C58**, what holds of the factors.  If one execution returns 0 and met no tie (every multiplier
times its pivot is strictly smaller than the pivot), then every execution on the same matrix - with any tile size,
inner block size, number of panel threads, leading dimension and schedule - returns the same pivots
and the same factors. -/
theorem C58_factors_partial (hrg : LuMatch rg nb m n) (hrg' : LuMatch rg' nb' m n) (hdv : IsDiv dv)
    (hdv' : IsDiv dv') (hmag : IsMag mag) (hnb : 0 < nb) (hib : 0 < ib) (hmpt : 0 < mpt) (hl : m ≤ lda)
    (hnb' : 0 < nb') (hib' : 0 < ib') (hmpt' : 0 < mpt') (hl' : m ≤ lda') (mem1 mem2 mem1' mem2' : Buf × Nat → α)
    (ret2 : Int) (hA : ∀ r c, r < m → c < n → arr mem1 0 lda r c = arr mem2 0 lda' r c)
    (hx1 : ZgetrfRun rg E mag dv big nb ib mpt m n lda mem1 mem1' 0)
    (hx2 : ZgetrfRun rg' E' mag dv' big' nb' ib' mpt' m n lda' mem2 mem2' ret2)
    (hs : ∀ c r, c < min m n → c < r → r < m →
      mag (arr mem1' 0 lda r c * arr mem1' 0 lda c c) < mag (arr mem1' 0 lda c c)) :
    ret2 = 0 ∧ (∀ i, i < min m n → ipv E mem1' i = ipv E' mem2' i) ∧
    ∀ r c, r < m → c < n → arr mem1' 0 lda r c = arr mem2' 0 lda' r c := by
  obtain rfl : ret2 = 0 := (C58_status_partial hrg hrg' hdv hdv' hmag hnb hib hmpt hl hnb' hib' hmpt' hl' mem1 mem2
    mem1' mem2' 0 ret2 hA hx1 hx2).symm
  refine ⟨rfl, ?_⟩
  have h1 := lu_pivLU hrg hdv hmag hnb hib hmpt hl hx1
  have h2 := lu_pivLU hrg' hdv' hmag hnb' hib' hmpt' hl' hx2
  refine h1.unique ⟨h2.rng, fun r c hr hc => ?_, h2.dia, h2.dom⟩ hs
  rw [← h2.lu r c hr hc, hA _ c (perm_lt (Nat.min_le_left _ _) (fun i hi => (h2.rng i hi).2) hr) hc]

end

section
variable {𝕜 : Type v} [RCLike 𝕜] [DecidableEq 𝕜] {E : IntCode 𝕜} {dv : 𝕜 → 𝕜 → 𝕜} {big : 𝕜 → Bool}
  {nb ib mpt m n lda : Nat}

theorem cabs1_isMag : IsMag (cabs1 (𝕜 := 𝕜)) := ⟨fun x hx => by
  unfold cabs1 at hx
  rw [map_zero, map_zero, abs_zero, add_zero] at hx
  have h1 := abs_nonneg (RCLike.re x)
  have h2 := abs_nonneg (RCLike.im x)
  have h3 : RCLike.re x = 0 := abs_eq_zero.mp (by linarith)
  have h4 : RCLike.im x = 0 := abs_eq_zero.mp (by linarith)
  exact RCLike.ext (by rw [h3, map_zero]) (by rw [h4, map_zero])⟩

theorem norm_sq_abs (x : 𝕜) : ‖x‖ ^ 2 = |RCLike.re x| ^ 2 + |RCLike.im x| ^ 2 := by
  rw [sq_abs, sq_abs, ← RCLike.normSq_eq_def', RCLike.normSq_apply]; ring

theorem norm_le_cabs1 (x : 𝕜) : ‖x‖ ≤ cabs1 x := by
  have h : ‖x‖ ^ 2 ≤ (cabs1 x) ^ 2 := by
    rw [norm_sq_abs]
    unfold cabs1
    nlinarith [mul_nonneg (abs_nonneg (RCLike.re x)) (abs_nonneg (RCLike.im x))]
  exact (pow_le_pow_iff_left₀ (norm_nonneg _) cabs1_nonneg (by norm_num)).mp h

theorem cabs1_le_norm (x : 𝕜) : cabs1 x ≤ Real.sqrt 2 * ‖x‖ := by
  have h := norm_sq_abs x
  have h2 : (cabs1 x) ^ 2 ≤ (Real.sqrt 2 * ‖x‖) ^ 2 := by
    rw [mul_pow, Real.sq_sqrt (by norm_num), h]
    unfold cabs1
    nlinarith [sq_nonneg (|RCLike.re x| - |RCLike.im x|)]
  exact (pow_le_pow_iff_left₀ cabs1_nonneg (by positivity) (by norm_num)).mp h2

/-- **C57**, bounds.  With the magnitude the code uses (`plasma_core_dcabs1`), every multiplier has
modulus at most `√2`, and the entries of `U` grow by a factor of at most `(1+√2)^i` in row `i`. -/
theorem C57_growth_partial {rg : Bool} (hrg : LuMatch rg nb m n) (hdv : IsDiv dv)
    (hnb : 0 < nb) (hib : 0 < ib) (hmpt : 0 < mpt) (hl : m ≤ lda) (mem mem' : Buf × Nat → 𝕜)
    (hx : ZgetrfRun rg E cabs1 dv big nb ib mpt m n lda mem mem' 0) (B : ℝ)
    (hB : ∀ r c, r < m → c < n → ‖arr mem 0 lda r c‖ ≤ B) :
    (∀ c r, c < min m n → c < r → r < m → ‖arr mem' 0 lda r c‖ ≤ Real.sqrt 2) ∧
    (∀ r c, r < min m n → c < n → r ≤ c → ‖arr mem' 0 lda r c‖ ≤ (1 + Real.sqrt 2) ^ r * B) := by
  have hp := C57_pivots_partial hrg hdv cabs1_isMag hnb hib hmpt hl mem mem' hx
  obtain ⟨h1, h2, h3, -⟩ := C22_getrf_partial hrg hdv cabs1_isMag hnb hib hmpt hl mem mem' hx
  have hmul : ∀ c r, c < min m n → c < r → r < m → ‖arr mem' 0 lda r c‖ ≤ Real.sqrt 2 := by
    intro c r hc hcr hr
    have h4 := hp c r hc hcr hr
    have h5 : 0 < ‖arr mem' 0 lda c c‖ := norm_pos_iff.mpr (h3 c hc)
    have h6 := norm_le_cabs1 (arr mem' 0 lda r c * arr mem' 0 lda c c)
    have h7 := cabs1_le_norm (arr mem' 0 lda c c)
    rw [norm_mul] at h6
    exact le_of_mul_le_mul_right (by linarith) h5
  refine ⟨hmul, ?_⟩
  intro r
  induction r using Nat.strong_induction_on with
  | _ r ih =>
    intro c hr hc hrc
    have h4 := h2 r c (by omega) hc
    rw [perm_interch] at h4
    have hlt : perm (ipv E mem') 0 (min m n) r < m :=
      perm_lt (Nat.min_le_left _ _) (fun i hi => (h1 i hi).2.2) (by omega)
    have h5 := hB _ c hlt hc
    rw [h4] at h5
    have h6 : ∑ l ∈ range (min m n), luL (arr mem' 0 lda) r l * luU (arr mem' 0 lda) l c =
        ∑ l ∈ range r, arr mem' 0 lda r l * arr mem' 0 lda l c + arr mem' 0 lda r c := by
      rw [← Finset.sum_subset (s₁ := range (r + 1)) (fun x hx => by rw [mem_range] at hx ⊢; omega), sum_range_succ]
      · congr 1
        · refine sum_congr rfl fun l hl' => ?_
          rw [mem_range] at hl'
          unfold luL luU
          rw [if_pos hl', if_pos (by omega)]
        · unfold luL luU
          rw [if_neg (by omega), if_pos rfl, if_pos hrc, one_mul]
      · intro l _ hl'
        rw [mem_range] at hl'
        unfold luL
        rw [if_neg (by omega), if_neg (by omega), zero_mul]
    rw [h6] at h5
    have h7 : ‖arr mem' 0 lda r c‖ ≤ B + ∑ l ∈ range r, Real.sqrt 2 * ((1 + Real.sqrt 2) ^ l * B) := by
      have e : arr mem' 0 lda r c = (∑ l ∈ range r, arr mem' 0 lda r l * arr mem' 0 lda l c + arr mem' 0 lda r c) -
        ∑ l ∈ range r, arr mem' 0 lda r l * arr mem' 0 lda l c := by ring
      rw [e]
      refine (norm_sub_le _ _).trans (add_le_add h5 ((norm_sum_le _ _).trans (Finset.sum_le_sum fun l hl' => ?_)))
      rw [mem_range] at hl'
      rw [norm_mul]
      exact mul_le_mul (hmul l r (by omega) hl' (by omega)) (ih l hl' c (by omega) hc (by omega)) (norm_nonneg _)
        (Real.sqrt_nonneg _)
    refine h7.trans (le_of_eq ?_)
    generalize Real.sqrt 2 = q
    clear h7 h6 h5 h4 ih
    induction r with
    | zero => simp
    | succ r ihr =>
      rw [sum_range_succ, ← add_assoc, ihr (by omega) (by omega) (perm_lt (Nat.min_le_left _ _) (fun i hi => (h1 i hi).2.2) (by omega)), pow_succ]
      ring

end

section
variable {E : IntCode ℝ} {dv : ℝ → ℝ → ℝ} {big : ℝ → Bool} {nb ib mpt m n lda : Nat}

/-- **C57** for the real precisions: every multiplier has absolute value at most 1. -/
theorem C57_real_partial {rg : Bool} (hrg : LuMatch rg nb m n) (hdv : IsDiv dv)
    (hnb : 0 < nb) (hib : 0 < ib) (hmpt : 0 < mpt) (hl : m ≤ lda) (mem mem' : Buf × Nat → ℝ)
    (hx : ZgetrfRun rg E (fun x => |x|) dv big nb ib mpt m n lda mem mem' 0) :
    ∀ c r, c < min m n → c < r → r < m → |arr mem' 0 lda r c| ≤ 1 := by
  have hmag : IsMag (fun x : ℝ => |x|) := ⟨fun x hx => by simpa using hx⟩
  have hp := C57_pivots_partial hrg hdv hmag hnb hib hmpt hl mem mem' hx
  obtain ⟨-, -, h3, -⟩ := C22_getrf_partial hrg hdv hmag hnb hib hmpt hl mem mem' hx
  intro c r hc hcr hr
  have h4 := hp c r hc hcr hr
  have h5 : 0 < |arr mem' 0 lda c c| := abs_pos.mpr (h3 c hc)
  simp only [abs_mul] at h4
  exact le_of_mul_le_mul_right (by linarith) h5

end

/-! ### Cases meeting the hypotheses -/

/-- `C57_pivots_partial`: the execution of `luEx` (a 2×3 matrix that needs a pivot). -/
example : ∃ mem', ZgetrfRun true ratCode (fun x : ℚ => |x|) qdv (fun _ => true) 1 1 1 2 3 2 luEx mem' 0 ∧
    |arr mem' 0 2 1 0 * arr mem' 0 2 0 0| ≤ |arr mem' 0 2 0 0| := by
  have hdv : IsDiv qdv := qdv_isDiv
  have hmag : IsMag (fun x : ℚ => |x|) := ⟨fun x hx => by simpa using hx⟩
  obtain ⟨mem', ret, hx⟩ := zgetrf_exists (rg := true) (Or.inl rfl) (E := ratCode) (mag := fun x : ℚ => |x|) (dv := qdv)
    (big := fun _ => true) (nb := 1) (ib := 1) (mpt := 1) (m := 2) (n := 3) (lda := 2) (by decide) (by decide)
    (by decide) (by decide) luEx
  have h := (C43_getrf_singular_partial (rg := true) (Or.inl rfl) hdv hmag (by decide) (by decide) (by decide) (by decide) luEx mem' ret hx).1.mpr
    (fun x h c hc => by
      have h0 := h 0 (by decide)
      have h1 := h 1 (by decide)
      simp [Finset.sum_range_succ, arr, luEx] at h0 h1
      have hc' : c < 2 := hc
      interval_cases c
      · rw [h0] at h1; linarith
      · exact h0)
  subst h
  exact ⟨mem', hx, C57_pivots_partial (rg := true) (Or.inl rfl) hdv hmag (by decide) (by decide) (by decide) (by decide)
    luEx mem' hx 0 1 (by decide) (by decide) (by decide)⟩

/-- A 3×2 matrix with rows `(0,1)`, `(1,0)`, `(1,2)`, leading dimension 3: in its first column the
second and the third entry tie. -/
def luTie : Buf × Nat → ℚ
  | (.usr 0, 1) => 1
  | (.usr 0, 2) => 1
  | (.usr 0, 3) => 1
  | (.usr 0, 5) => 2
  | _ => 0

theorem luTie_piv {mpt : Nat} (hmpt : 0 < mpt) {mem' : Buf × Nat → ℚ} {ret : Int}
    (hx : ZgetrfRun true ratCode (fun x : ℚ => |x|) qdv (fun _ => true) 1 1 mpt 3 2 3 luTie mem' ret) :
    ret = 0 ∧ ipv ratCode mem' 0 = if mpt = 1 then 1 else 2 := by
  have hdv : IsDiv qdv := qdv_isDiv
  have hmag : IsMag (fun x : ℚ => |x|) := ⟨fun x hx => by simpa using hx⟩
  have h := (C43_getrf_singular_partial (rg := true) (Or.inl rfl) hdv hmag (by decide) (by decide) hmpt (by decide)
    luTie mem' ret hx).1.mpr
    (fun x h c hc => by
      have h0 := h 0 (by decide)
      have h1 := h 1 (by decide)
      simp [Finset.sum_range_succ, arr, luTie] at h0 h1
      have hc' : c < 2 := hc
      interval_cases c
      · exact h1
      · exact h0)
  subst h
  refine ⟨rfl, ?_⟩
  obtain ⟨s, hc, hin, -, hp⟩ := lu_success (rg := true) (Or.inl rfl) hdv hmag (by decide) (by decide) hmpt (by decide)
    (by decide) hx
  rw [hp 0 (by decide), pzgetrf_piv0 hdv hmag (lu_fit (lda := 3) (by decide) (by decide) hmpt).ok rfl (by decide) true s hc]
  have e0 := hin 0 0 (by decide) (by decide)
  have e1 := hin 1 0 (by decide) (by decide)
  have e2 := hin 2 0 (by decide) (by decide)
  simp only [arr, luTie] at e0 e1 e2
  generalize (tMat 1 (luDims 3 2) 0).el s = X at e0 e1 e2
  have hz : getrfCfg 1 mpt (tMat 1 (luDims 3 2) 0) 0 = ⟨1, 1, min mpt 2, 3, 1⟩ := rfl
  rw [hz]
  by_cases h1 : mpt = 1
  · subst h1
    rw [if_pos rfl, show min 1 2 = 1 from rfl]
    have ht : (Cfg.tiles ⟨1, 1, 1, 3, 1⟩ 0).flatMap (Cfg.rows ⟨1, 1, 1, 3, 1⟩ 0) = [1, 2] := by decide
    unfold best reduce
    simp [ht, search, e0, e1, e2]
  · rw [if_neg h1, show min mpt 2 = 2 by omega]
    have ht : (Cfg.tiles ⟨1, 1, 2, 3, 1⟩ 0).flatMap (Cfg.rows ⟨1, 1, 2, 3, 1⟩ 0) = [2] := by decide
    have ht1 : (Cfg.tiles ⟨1, 1, 2, 3, 1⟩ 1).flatMap (Cfg.rows ⟨1, 1, 2, 3, 1⟩ 0) = [1] := by decide
    unfold best reduce
    simp [ht, ht1, search, e0, e1, e2]

/-- **C58**, refutation.  With ties the pivots, hence the factors, depend on the number of panel
threads: on the matrix `luTie` every execution with one panel thread returns `ipiv[0] = 2` and every
execution with two returns `ipiv[0] = 3`. -/
theorem C58_threads_refuted :
    (∃ mem' ret, ZgetrfRun true ratCode (fun x : ℚ => |x|) qdv (fun _ => true) 1 1 1 3 2 3 luTie mem' ret) ∧
    (∃ mem' ret, ZgetrfRun true ratCode (fun x : ℚ => |x|) qdv (fun _ => true) 1 1 2 3 2 3 luTie mem' ret) ∧
    (∀ mem' ret, ZgetrfRun true ratCode (fun x : ℚ => |x|) qdv (fun _ => true) 1 1 1 3 2 3 luTie mem' ret →
      ret = 0 ∧ ipv ratCode mem' 0 + 1 = 2) ∧
    (∀ mem' ret, ZgetrfRun true ratCode (fun x : ℚ => |x|) qdv (fun _ => true) 1 1 2 3 2 3 luTie mem' ret →
      ret = 0 ∧ ipv ratCode mem' 0 + 1 = 3) := by
  refine ⟨zgetrf_exists (Or.inl rfl) (by decide) (by decide) (by decide) (by decide) _,
    zgetrf_exists (Or.inl rfl) (by decide) (by decide) (by decide) (by decide) _, fun mem' ret hx => ?_, fun mem' ret hx => ?_⟩
  · obtain ⟨h1, h2⟩ := luTie_piv (by decide) hx
    exact ⟨h1, by rw [h2]; rfl⟩
  · obtain ⟨h1, h2⟩ := luTie_piv (by decide) hx
    exact ⟨h1, by rw [h2]; rfl⟩

/-- The exchange matrix `[0 1; 1 0]`, leading dimension 2: the first pivot is in the second row. -/
def luExch (𝕜 : Type v) [Zero 𝕜] [One 𝕜] : Buf × Nat → 𝕜
  | (.usr 0, x) => if x = 1 ∨ x = 2 then 1 else 0
  | _ => 0

theorem luExch_run {𝕜 : Type v} [RCLike 𝕜] [DecidableEq 𝕜] {mag : 𝕜 → ℝ} (hmag : IsMag mag) :
    ∃ (E : IntCode 𝕜) (dv : 𝕜 → 𝕜 → 𝕜) (mem' : Buf × Nat → 𝕜), IsDiv dv ∧
    (∀ r c, r < 2 → c < 2 → ‖arr (luExch 𝕜) 0 2 r c‖ ≤ 1) ∧
    ZgetrfRun true E mag dv (fun _ => true) 1 1 1 2 2 2 (luExch 𝕜) mem' 0 := by
  obtain ⟨E⟩ := exists_intCode 𝕜 (fun n => (n : 𝕜)) Nat.cast_injective
  have hdv : IsDiv (fun x y : 𝕜 => x / y) := ⟨fun x y _ => rfl⟩
  obtain ⟨mem', ret, hx⟩ := zgetrf_exists (rg := true) (Or.inl rfl) (E := E) (mag := mag)
    (dv := fun x y => x / y) (big := fun _ => true) (nb := 1) (ib := 1) (mpt := 1) (m := 2) (n := 2) (lda := 2)
    (by decide) (by decide) (by decide) (by decide) (luExch 𝕜)
  have h := (C43_getrf_singular_partial (rg := true) (Or.inl rfl) hdv hmag (by decide) (by decide) (by decide)
    (by decide) (luExch 𝕜) mem' ret hx).1.mpr
    (fun x h c hc => by
      have h0 := h 0 (by decide)
      have h1 := h 1 (by decide)
      simp [Finset.sum_range_succ, arr, luExch] at h0 h1
      have hc' : c < 2 := hc
      interval_cases c
      · exact h1
      · exact h0)
  subst h
  refine ⟨E, _, mem', hdv, fun r c hr hc => ?_, hx⟩
  unfold arr luExch
  simp only
  split <;> simp

/-- `C57_growth_partial`: over the complex numbers an execution on the exchange matrix returns 0. -/
example : ∃ (_ : DecidableEq ℂ) (E : IntCode ℂ) (dv : ℂ → ℂ → ℂ) (mem' : Buf × Nat → ℂ), IsDiv dv ∧
    (∀ r c, r < 2 → c < 2 → ‖arr (luExch ℂ) 0 2 r c‖ ≤ 1) ∧
    ZgetrfRun true E cabs1 dv (fun _ => true) 1 1 1 2 2 2 (luExch ℂ) mem' 0 := by
  classical
  exact ⟨inferInstance, luExch_run cabs1_isMag⟩

/-- `C57_real_partial`: the same over the real numbers. -/
example : ∃ (E : IntCode ℝ) (dv : ℝ → ℝ → ℝ) (mem' : Buf × Nat → ℝ), IsDiv dv ∧
    ZgetrfRun true E (fun x => |x|) dv (fun _ => true) 1 1 1 2 2 2 (luExch ℝ) mem' 0 := by
  obtain ⟨E, dv, mem', h1, -, h2⟩ := luExch_run (𝕜 := ℝ) (mag := fun x => |x|) ⟨fun x hx => by simpa using hx⟩
  exact ⟨E, dv, mem', h1, h2⟩

/-- `C58_status_partial` and `C58_factors_partial`: `luEx` factored with tiles of size 1 and one panel
thread, and with tiles of size 2 and two panel threads.  No tie is met, so both executions return the
same pivots and factors. -/
example : ∃ mem1 mem2,
    ZgetrfRun true ratCode (fun x : ℚ => |x|) qdv (fun _ => true) 1 1 1 2 3 2 luEx mem1 0 ∧
    ZgetrfRun true ratCode (fun x : ℚ => |x|) qdv (fun _ => true) 2 1 2 2 3 2 luEx mem2 0 ∧
    (∀ c r, c < min 2 3 → c < r → r < 2 →
      |arr mem1 0 2 r c * arr mem1 0 2 c c| < |arr mem1 0 2 c c|) ∧
    (∀ r c, r < 2 → c < 3 → arr mem1 0 2 r c = arr mem2 0 2 r c) := by
  have hdv : IsDiv qdv := qdv_isDiv
  have hmag : IsMag (fun x : ℚ => |x|) := ⟨fun x hx => by simpa using hx⟩
  obtain ⟨mem1, ret, hx⟩ := zgetrf_exists (rg := true) (Or.inl rfl) (E := ratCode) (mag := fun x : ℚ => |x|) (dv := qdv)
    (big := fun _ => true) (nb := 1) (ib := 1) (mpt := 1) (m := 2) (n := 3) (lda := 2) (by decide) (by decide)
    (by decide) (by decide) luEx
  obtain ⟨mem2, ret2, hx2⟩ := zgetrf_exists (rg := true) (Or.inl rfl) (E := ratCode) (mag := fun x : ℚ => |x|) (dv := qdv)
    (big := fun _ => true) (nb := 2) (ib := 1) (mpt := 2) (m := 2) (n := 3) (lda := 2) (by decide) (by decide)
    (by decide) (by decide) luEx
  have h := (C43_getrf_singular_partial (rg := true) (Or.inl rfl) hdv hmag (by decide) (by decide) (by decide) (by decide) luEx mem1 ret hx).1.mpr
    (fun x h c hc => by
      have h0 := h 0 (by decide)
      have h1 := h 1 (by decide)
      simp [Finset.sum_range_succ, arr, luEx] at h0 h1
      have hc' : c < 2 := hc
      interval_cases c
      · rw [h0] at h1; linarith
      · exact h0)
  subst h
  have hP := lu_pivLU (rg := true) (Or.inl rfl) hdv hmag (by decide) (by decide) (by decide) (by decide) hx
  have hs : ∀ c r, c < min 2 3 → c < r → r < 2 →
      |arr mem1 0 2 r c * arr mem1 0 2 c c| < |arr mem1 0 2 c c| := by
    intro c r hc hcr hr
    have hd := hP.dia 0 (by decide)
    obtain ⟨rfl, rfl⟩ : c = 0 ∧ r = 1 := by omega
    have h00 := hP.lu 0 0 (by decide) (by decide)
    have h10 := hP.lu 1 0 (by decide) (by decide)
    have r0 := hP.rng 0 (by decide)
    have r1 := hP.rng 1 (by decide)
    have p1 : ipv ratCode mem1 1 = 1 := by omega
    rw [show min 2 3 = 2 from rfl] at h00 h10
    simp [luE, perm, p1, arr, luEx] at h00 h10
    have p0 : ipv ratCode mem1 0 = 0 ∨ ipv ratCode mem1 0 = 1 := by omega
    rcases p0 with p0 | p0
    · rw [p0] at h00
      simp at h00
      exact absurd h00.symm hd
    · rw [p0] at h10
      simp at h10
      have : arr mem1 0 2 1 0 * arr mem1 0 2 0 0 = 0 := by
        unfold arr; simpa using h10
      rw [this, abs_zero]
      exact abs_pos.mpr hd
  obtain ⟨h2, -, h3⟩ := C58_factors_partial (rg := true) (rg' := true) (Or.inl rfl) (Or.inl rfl) hdv hdv hmag (by decide)
    (by decide) (by decide) (by decide) (by decide) (by decide) (by decide) (by decide) luEx luEx mem1 mem2 ret2
    (fun _ _ _ _ => rfl) hx hx2 hs
  subst h2
  exact ⟨mem1, mem2, hx, hx2, hs, h3⟩

end Verif.Props

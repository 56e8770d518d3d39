/-
C48-C51: eigenvalues of symmetric tridiagonal matrices by bisection.
-/
import Verif.SturmMath
import Verif.Stevx
import Verif.TriMath
import Mathlib.Tactic.Linarith
import Mathlib.Tactic.NormNum

namespace Verif.Props

open Verif.Sturm Verif.Stevx
open Verif.Tile (IsDiv)

/-! ### C50 -/

theorem changes_pos {p : Nat → ℝ} {k : Nat} (h : chg p k) : changes p (k + 1) = changes p k + 1 := by
  unfold changes; rw [if_pos h]; cases k <;> rfl

theorem changes_neg {p : Nat → ℝ} {k : Nat} (h : ¬chg p k) : changes p (k + 1) = changes p k := by
  conv_lhs => unfold changes
  rw [if_neg h]; rfl

theorem minor_zeros (d b : Nat → ℝ) {k : Nat} (h0 : minor d b k = 0) (h1 : minor d b (k + 1) = 0) :
    ∀ j, k ≤ j → minor d b j = 0 ∧ minor d b (j + 1) = 0 := by
  intro j hj
  induction j, hj using Nat.le_induction with
  | base => exact ⟨h0, h1⟩
  | succ j _ ih =>
    refine ⟨ih.2, ?_⟩
    show d (j + 1) * minor d b (j + 1) - b j * b j * minor d b j = 0
    rw [ih.1, ih.2]; ring

/-- What the local variables of `plasma_zlaneg2` hold after the entry `j` of the diagonal. -/
structure NegInv (d b : Nat → ℝ) (u : ℝ) (j : Nat) (s : NegSt ℝ) : Prop where
  cnt : s.isneg = changes (minor (fun i => d i - u) b) (j + 1)
  val : ∃ c : ℝ, 0 < c ∧ s.p0 = c * minor (fun i => d i - u) b (j + 1) ∧
    s.p1 = c * minor (fun i => d i - u) b j

theorem negStep_inv {dv : ℝ → ℝ → ℝ} (hdv : IsDiv dv) {d b : Nat → ℝ} {u : ℝ} {j : Nat} {s : NegSt ℝ}
    (h : NegInv d b u j s) : NegInv d b u (j + 1) (negStep dv d b u s (j + 1)) := by
  obtain ⟨h1, c, hc, h2, h3⟩ := h
  set P := minor (fun i => d i - u) b with hP
  have hrec : (d (j + 1) - u) * s.p0 - b j * b j * s.p1 = c * P (j + 2) := by
    rw [h2, h3]
    show _ = c * ((d (j + 1) - u) * P (j + 1) - b j * b j * P j)
    ring
  have hphi : (0 : ℝ) < phi := by unfold phi; positivity
  have hups : (0 : ℝ) < dv 1 phi := by rw [hdv.eq _ _ hphi.ne']; positivity
  -- the scaling factor is positive unless everything vanishes
  obtain ⟨e, he, h4, h5⟩ : ∃ e : ℝ, 0 < e ∧
      (negStep dv d b u s (j + 1)).p0 = e * P (j + 2) ∧
      (negStep dv d b u s (j + 1)).p1 = e * P (j + 1) := by
    simp only [negStep, Nat.add_sub_cancel]
    rw [hrec, h2]
    have key : ∀ sc : ℝ, (0 < sc ∨ (P (j + 1) = 0 ∧ P (j + 2) = 0)) →
        ∃ e : ℝ, 0 < e ∧ c * P (j + 2) * sc = e * P (j + 2) ∧ c * P (j + 1) * sc = e * P (j + 1) := by
      rintro sc (h | ⟨h, h'⟩)
      · exact ⟨c * sc, mul_pos hc h, by ring, by ring⟩
      · exact ⟨1, one_pos, by rw [h']; ring, by rw [h]; ring⟩
    apply key
    generalize hw : (if |c * P (j + 1)| > |s.p1| then |c * P (j + 1)| else |s.p1|) = w
    by_cases hw1 : w > phi
    · rw [if_pos hw1, hdv.eq _ _ (hphi.trans hw1).ne']
      exact Or.inl (div_pos hphi (hphi.trans hw1))
    · rw [if_neg hw1]
      by_cases hw2 : w < dv 1 phi
      · rw [if_pos hw2]
        have hw0 : 0 ≤ w := by rw [← hw]; split <;> exact abs_nonneg _
        rcases hw0.lt_or_eq with hw3 | hw3
        · rw [hdv.eq _ _ hw3.ne']; exact Or.inl (div_pos hups hw3)
        · right
          have hz : P (j + 1) = 0 ∧ P j = 0 := by
            rw [← hw3, h3] at hw
            have hle : |c * P (j + 1)| ≤ 0 ∧ |c * P j| ≤ 0 := by
              split at hw
              · rename_i hlt; rw [hw] at hlt ⊢; exact ⟨le_rfl, hlt.le⟩
              · rename_i hlt; rw [hw] at hlt ⊢; exact ⟨not_lt.mp hlt, le_rfl⟩
            have e1 := abs_eq_zero.mp (le_antisymm hle.1 (abs_nonneg _))
            have e2 := abs_eq_zero.mp (le_antisymm hle.2 (abs_nonneg _))
            exact ⟨(mul_eq_zero.mp e1).resolve_left hc.ne', (mul_eq_zero.mp e2).resolve_left hc.ne'⟩
          exact minor_zeros _ b hz.2 hz.1 (j + 1) (by omega)
      · rw [if_neg hw2]; exact Or.inl one_pos
  refine ⟨?_, e, he, h4, h5⟩
  have hs : (negStep dv d b u s (j + 1)).isneg =
      if ((negStep dv d b u s (j + 1)).p0 < 0 ∧ (negStep dv d b u s (j + 1)).p1 ≥ 0) ∨
        ((negStep dv d b u s (j + 1)).p0 ≥ 0 ∧ (negStep dv d b u s (j + 1)).p1 < 0)
      then s.isneg + 1 else s.isneg := rfl
  rw [hs, h4, h5, h1]
  have hiff : ((e * P (j + 2) < 0 ∧ e * P (j + 1) ≥ 0) ∨ (e * P (j + 2) ≥ 0 ∧ e * P (j + 1) < 0)) ↔
      chg P (j + 1) := by
    unfold chg
    rw [mul_neg_iff_neg he, mul_neg_iff_neg he, ge_iff_le, ge_iff_le, mul_nonneg_iff_of_pos_left he,
      mul_nonneg_iff_of_pos_left he]
  by_cases hh : chg P (j + 1)
  · rw [changes_pos hh, if_pos (hiff.mpr hh)]
  · rw [changes_neg hh, if_neg (fun h => hh (hiff.mp h))]
where mul_neg_iff_neg {e x : ℝ} (he : 0 < e) : e * x < 0 ↔ x < 0 := by
        constructor
        · intro h; by_contra hx; exact absurd (mul_nonneg he.le (not_lt.mp hx)) (not_le.mpr h)
        · intro h; exact mul_neg_of_pos_of_neg he h

/-- In exact arithmetic, whatever the scaling, `plasma_zlaneg2` counts the sign changes in the
sequence of leading principal minors of `T - u I`. -/
theorem laneg2_changes {dv : ℝ → ℝ → ℝ} (hdv : IsDiv dv) (d b : Nat → ℝ) (n : Nat) (u : ℝ) :
    laneg2 dv d b n u = changes (minor (fun i => d i - u) b) n := by
  unfold laneg2
  rcases n with _ | n
  · rfl
  rw [if_neg (by omega), Nat.add_sub_cancel]
  have key : ∀ j, NegInv d b u j ((List.range' 1 j).foldl (negStep dv d b u)
      ⟨if d 0 - u < 0 then 1 else 0, d 0 - u, 1⟩) := by
    intro j
    induction j with
    | zero =>
      refine ⟨?_, 1, one_pos, ?_, ?_⟩
      · show (if d 0 - u < 0 then 1 else 0) = _
        have : chg (minor (fun i => d i - u) b) 0 ↔ d 0 - u < 0 := by
          simp only [chg, minor]
          constructor
          · rintro (h | h)
            · exact h.1
            · linarith [h.2]
          · intro h; exact Or.inl ⟨h, zero_le_one⟩
        by_cases hh : d 0 - u < 0
        · rw [if_pos hh, changes_pos (this.mpr hh)]; rfl
        · rw [if_neg hh, changes_neg (fun h => hh (this.mp h))]; rfl
      · simp [minor]
      · simp [minor]
    | succ j ih =>
      rw [List.range'_concat, List.foldl_append]
      have := negStep_inv hdv ih
      rw [show 1 + 1 * j = j + 1 by omega]
      exact this
  exact (key n).cnt

theorem minors_unreduced {d b : Nat → ℝ} {n : Nat} (hb : ∀ i, i + 1 < n → b i ≠ 0) :
    ∀ k, k < n → minor d b k = 0 → minor d b (k + 1) ≠ 0 := by
  intro k
  induction k with
  | zero => intro _ h; simp [minor] at h
  | succ k ih =>
    intro hk h0 h1
    have hr : d (k + 1) * minor d b (k + 1) - b k * b k * minor d b k = 0 := h1
    rw [h0] at hr
    have : b k * b k * minor d b k = 0 := by linarith
    have hbk := hb k (by omega)
    rcases mul_eq_zero.mp this with h | h
    · exact hbk (mul_self_eq_zero.mp h)
    · exact ih (by omega) h h0

/-- **C50**, partial: `plasma_zlaneg2` returns the number of eigenvalues less than `u` provided
`u` is not an eigenvalue of the matrix, nor of two consecutive leading principal submatrices.
What is missing is shown to fail by `C50_laneg2_refuted_split` and
`C50_laneg2_refuted_eigenvalue`. -/
theorem C50_laneg2_partial {dv : ℝ → ℝ → ℝ} (hdv : IsDiv dv) (d b : Nat → ℝ) (n : Nat) (u : ℝ)
    (hu : (tri d b n - u • 1).det ≠ 0)
    (h2 : ∀ k, k < n → (tri d b k - u • 1).det = 0 → (tri d b (k + 1) - u • 1).det ≠ 0) :
    laneg2 dv d b n u = below (tri d b n) u := by
  simp only [tri_shift, det_tri] at hu h2
  rw [laneg2_changes hdv, (changes_eq _ b n h2).1 hu, ← tri_shift, negs_shift (tri_herm d b n)]

/-- **C50**, partial: for a matrix without zeros next to the diagonal the result is the number of
eigenvalues less than `u`, or one more; it is one more exactly if `u` is an eigenvalue and the
leading principal minor of order `n-1` of the shifted matrix is negative. -/
theorem C50_laneg2_unreduced_partial {dv : ℝ → ℝ → ℝ} (hdv : IsDiv dv) (d b : Nat → ℝ) (n : Nat) (u : ℝ)
    (hb : ∀ i, i + 1 < n → b i ≠ 0) :
    laneg2 dv d b n u = below (tri d b n) u +
      if (tri d b n - u • 1).det = 0 ∧ (tri d b (n - 1) - u • 1).det < 0 then 1 else 0 := by
  have h2 := minors_unreduced (d := fun i => d i - u) hb
  simp only [tri_shift, det_tri]
  rw [laneg2_changes hdv, ← negs_shift (tri_herm d b n), tri_shift]
  obtain ⟨h3, h4⟩ := changes_eq (fun i => d i - u) b n h2
  by_cases h0 : minor (fun i => d i - u) b n = 0
  · rcases n with _ | m
    · simp [minor] at h0
    obtain ⟨h5, h6⟩ := h4 m rfl h0
    have : chg (minor (fun i => d i - u) b) m ↔ (minor (fun i => d i - u) b (m + 1) = 0 ∧
        minor (fun i => d i - u) b (m + 1 - 1) < 0) := by
      unfold chg
      rw [h0, Nat.add_sub_cancel]
      constructor
      · rintro (h | h)
        · exact absurd h.1 (lt_irrefl _)
        · exact ⟨rfl, h.2⟩
      · intro h; exact Or.inr ⟨le_rfl, h.2⟩
    by_cases hh : chg (minor (fun i => d i - u) b) m
    · rw [changes_pos hh, if_pos (this.mp hh), h5, h6]
    · rw [changes_neg hh, if_neg (fun h => hh (this.mpr h)), h5, h6]; rfl
  · rw [h3 h0, if_neg (fun h => h0 h.1)]; rfl

/-- Division on the reals. -/
noncomputable def rdiv : ℝ → ℝ → ℝ := fun x y => x / y
theorem rdiv_isDiv : IsDiv rdiv := ⟨fun _ _ _ => rfl⟩

/-- The matrix with diagonal 2, 1, 0, … and nothing else. -/
def dEx : Nat → ℝ := fun i => if i = 0 then 2 else if i = 1 then 1 else 0

/-- The hypotheses of `C50_laneg2_partial` hold for `diag(2,1)` and `u = 3/2`. -/
example : laneg2 rdiv dEx (fun _ => 0) 2 (3 / 2) = below (tri dEx (fun _ => 0) 2) (3 / 2) := by
  apply C50_laneg2_partial rdiv_isDiv
  · rw [tri_shift, det_tri]; simp [minor, dEx]; norm_num
  · intro k hk
    rw [tri_shift, det_tri, tri_shift, det_tri]
    rcases k with _ | _ | k
    · simp [minor]
    · simp [minor, dEx]; norm_num
    · omega

/-- And of `C50_laneg2_unreduced_partial` for a matrix with ones next to the diagonal. -/
example : ∀ i, i + 1 < 5 → (fun _ => 1 : Nat → ℝ) i ≠ 0 := fun _ _ => one_ne_zero

theorem below_mono {n : Nat} (A : Matrix (Fin n) (Fin n) ℝ) {u v : ℝ} (h : u ≤ v) :
    below A u ≤ below A v := by
  classical
  unfold below
  rw [Multiset.countP_eq_card_filter, Multiset.countP_eq_card_filter]
  refine Multiset.card_le_card (Multiset.monotone_filter_right _ ?_)
  intro x hx
  exact lt_of_lt_of_le hx h

/-- **C50** is false in general: for `diag(2,1)` and `u = 2` the result is 0 though 1 is an
eigenvalue less than 2. -/
theorem C50_laneg2_refuted_split :
    laneg2 rdiv dEx (fun _ => 0) 2 2 = 0 ∧ 1 ≤ below (tri dEx (fun _ => 0) 2) 2 := by
  constructor
  · rw [laneg2_changes rdiv_isDiv]
    simp [changes, chg, minor, dEx]
  · refine le_trans ?_ (below_mono _ (show (3 / 2 : ℝ) ≤ 2 by norm_num))
    have h : laneg2 rdiv dEx (fun _ => 0) 2 (3 / 2) = below (tri dEx (fun _ => 0) 2) (3 / 2) := by
      apply C50_laneg2_partial rdiv_isDiv
      · rw [tri_shift, det_tri]; simp [minor, dEx]; norm_num
      · intro k hk
        rw [tri_shift, det_tri, tri_shift, det_tri]
        rcases k with _ | _ | k
        · simp [minor]
        · simp [minor, dEx]; norm_num
        · omega
    rw [← h, laneg2_changes rdiv_isDiv]
    have h0 : chg (minor (fun i => dEx i - 3 / 2) fun _ => 0) 1 := by
      left; simp [minor, dEx]; norm_num
    rw [changes_pos h0]; omega

/-- **C50** is false even without zeros next to the diagonal: for `[[0,1],[1,0]]` and `u = 1`
the result is 2 though only the eigenvalue -1 is less than 1. -/
theorem C50_laneg2_refuted_eigenvalue :
    laneg2 rdiv (fun _ => 0) (fun _ => 1) 2 1 = 2 ∧ below (tri (fun _ => 0) (fun _ => 1) 2) 1 = 1 := by
  have h1 : laneg2 rdiv (fun _ => 0) (fun _ => 1) 2 1 = 2 := by
    rw [laneg2_changes rdiv_isDiv]
    have h0 : chg (minor (fun _ => (0 : ℝ) - 1) fun _ => 1) 0 := by left; simp [minor]
    have h0' : chg (minor (fun _ => (0 : ℝ) - 1) fun _ => 1) 1 := by right; simp [minor]
    rw [changes_pos h0', changes_pos h0]; rfl
  refine ⟨h1, ?_⟩
  have := C50_laneg2_unreduced_partial rdiv_isDiv (fun _ => 0) (fun _ => 1) 2 1 (fun _ _ => one_ne_zero)
  rw [h1, tri_shift, det_tri, tri_shift, det_tri, if_pos ⟨by simp [minor], by simp [minor]⟩] at this
  omega

/-! ### C48, C49 -/

section
variable {F : Type} [LinearOrder F] [LocallyFiniteOrder F]

/-- What is subtracted from the number of eigenvalues below to get an output index. -/
def Control.off (C : Control) : Int := if C.rangeI then C.il - 1 else C.baseIdx

/-- The writes made for the bracket `[l,u)`: every cluster consists of the eigenvalues in
`[v,v')` with `v'` the number after `v`. -/
structure Clusters (cnt : F → Int) (C : Control) (l u : F) (ws : List (Wr F)) : Prop where
  each : ∀ w ∈ ws, 1 ≤ w.mul ∧ l ≤ w.val ∧ ∃ v', w.val ⋖ v' ∧ v' ≤ u ∧
    cnt w.val = w.idx + Control.off C ∧ cnt v' = w.idx + Control.off C + w.mul ∧
    (C.rangeI = true → C.il ≤ cnt v' ∧ cnt w.val < C.iu)
  order : ws.Pairwise fun w w' => w.idx + w.mul ≤ w'.idx ∧ w.val < w'.val
  cover : ∀ t, cnt l ≤ t → t < cnt u → (C.rangeI = true → C.il - 1 ≤ t ∧ t < C.iu) →
    ∃ w ∈ ws, w.idx + Control.off C ≤ t ∧ t < w.idx + Control.off C + w.mul
  total : C.rangeI = false → (ws.map (·.mul)).sum = cnt u - cnt l

theorem bisect_clusters (M : Mid F) {cnt : F → Int} (hm : Monotone cnt) (C : Control)
    (hC : C.rangeI = true → C.il ≤ C.iu) :
    ∀ (N : Nat) (l u : F), (Finset.Ico l u).card = N → l < u → cnt l < cnt u →
      (C.rangeI = true → C.il ≤ cnt u ∧ cnt l < C.iu) →
      ∃ ws, bisect M cnt C l u (cnt l) (cnt u) (cnt u - cnt l) = some ws ∧ Clusters cnt C l u ws := by
  intro N
  induction N using Nat.strong_induction_on with
  | _ N ih =>
  intro l u hN hlu hc hR
  rw [bisect]
  by_cases hcp : M.mid l u = l ∨ M.mid l u = u
  · rw [if_pos hcp]
    refine ⟨_, rfl, ?_⟩
    have hcov : l ⋖ u := by
      refine ⟨hlu, fun x h1 h2 => ?_⟩
      have := M.strict l u x h1 h2
      rcases hcp with h | h
      · exact absurd this.1 (by rw [h]; exact lt_irrefl _)
      · exact absurd this.2 (by rw [h]; exact lt_irrefl _)
    have hoff : (if C.rangeI = true then cnt l - (C.il - 1) else cnt l - C.baseIdx) + Control.off C = cnt l := by
      unfold Control.off; split <;> omega
    refine ⟨?_, List.pairwise_singleton _ _, ?_, ?_⟩
    · intro w hw
      rw [List.mem_singleton] at hw; subst hw
      refine ⟨by simp only; omega, le_rfl, u, hcov, le_rfl, ?_, ?_, hR⟩
      · simp only; rw [hoff]
      · simp only; rw [hoff]; omega
    · intro t h1 h2 _
      refine ⟨_, List.mem_singleton.mpr rfl, ?_, ?_⟩
      · simp only; rw [hoff]; exact h1
      · simp only; rw [hoff]; omega
    · intro _; simp
  rw [if_neg hcp]
  have hb : l < M.mid l u ∧ M.mid l u < u := by
    have h1 := M.lo l u hlu.le
    have h2 := M.hi l u hlu.le
    exact ⟨lt_of_le_of_ne h1 (fun h => hcp (Or.inl h.symm)), lt_of_le_of_ne h2 (fun h => hcp (Or.inr h))⟩
  rw [dif_pos hb]
  generalize M.mid l u = cp at hb
  have hl : cnt l ≤ cnt cp := hm hb.1.le
  have hu : cnt cp ≤ cnt u := hm hb.2.le
  have mL : (Finset.Ico l cp).card < N := by
    rw [← hN]
    exact Finset.card_lt_card ((Finset.ssubset_iff_of_subset (Finset.Ico_subset_Ico le_rfl hb.2.le)).mpr
      ⟨cp, Finset.mem_Ico.mpr ⟨hb.1.le, hb.2⟩, fun hh => absurd (Finset.mem_Ico.mp hh).2 (lt_irrefl _)⟩)
  have mR : (Finset.Ico cp u).card < N := by
    rw [← hN]
    exact Finset.card_lt_card ((Finset.ssubset_iff_of_subset (Finset.Ico_subset_Ico hb.1.le le_rfl)).mpr
      ⟨l, Finset.mem_Ico.mpr ⟨le_rfl, hlu⟩, fun hh => absurd (Finset.mem_Ico.mp hh).1 (not_le.mpr hb.1)⟩)
  dsimp only
  by_cases e1 : cnt cp = cnt u
  · rw [if_pos e1]
    obtain ⟨ws, h1, h2⟩ := ih _ mL l cp rfl hb.1 (by omega) (fun h => by rw [e1]; exact hR h)
    rw [e1] at h1
    refine ⟨ws, h1, ?_, h2.order, ?_, ?_⟩
    · intro w hw
      obtain ⟨a1, a2, v', a3, a4, a5⟩ := h2.each w hw
      exact ⟨a1, a2, v', a3, a4.trans hb.2.le, a5⟩
    · intro t h3 h4; exact h2.cover t h3 (by omega)
    · intro h; rw [h2.total h, e1]
  rw [if_neg e1]
  by_cases e2 : cnt cp = cnt l
  · rw [if_pos e2]
    obtain ⟨ws, h1, h2⟩ := ih _ mR cp u rfl hb.2 (by omega) (fun h => by rw [e2]; exact hR h)
    rw [e2] at h1
    refine ⟨ws, h1, ?_, h2.order, ?_, ?_⟩
    · intro w hw
      obtain ⟨a1, a2, a5⟩ := h2.each w hw
      exact ⟨a1, hb.1.le.trans a2, a5⟩
    · intro t h3 h4; exact h2.cover t (by omega) h4
    · intro h; rw [h2.total h, e2]
  rw [if_neg e2]
  by_cases e3 : C.rangeI = true ∧ cnt cp < C.il
  · rw [if_pos e3]
    obtain ⟨ws, h1, h2⟩ := ih _ mR cp u rfl hb.2 (by omega)
      (fun h => ⟨(hR h).1, lt_of_lt_of_le e3.2 (hC h)⟩)
    refine ⟨ws, h1, ?_, h2.order, ?_, ?_⟩
    · intro w hw
      obtain ⟨a1, a2, a5⟩ := h2.each w hw
      exact ⟨a1, hb.1.le.trans a2, a5⟩
    · intro t h3 h4 h5
      have := h5 e3.1
      exact h2.cover t (by omega) h4 h5
    · intro h; rw [e3.1] at h; cases h
  rw [if_neg e3]
  by_cases e4 : C.rangeI = true ∧ cnt cp ≥ C.iu
  · rw [if_pos e4]
    obtain ⟨ws, h1, h2⟩ := ih _ mL l cp rfl hb.1 (by omega)
      (fun h => ⟨(hC h).trans e4.2, (hR h).2⟩)
    refine ⟨ws, h1, ?_, h2.order, ?_, ?_⟩
    · intro w hw
      obtain ⟨a1, a2, v', a3, a4, a5⟩ := h2.each w hw
      exact ⟨a1, a2, v', a3, a4.trans hb.2.le, a5⟩
    · intro t h3 h4 h5
      have := h5 e4.1
      have := e4.2
      exact h2.cover t h3 (by omega) h5
    · intro h; rw [e4.1] at h; cases h
  rw [if_neg e4]
  have hR' : C.rangeI = true → C.il ≤ cnt cp ∧ cnt cp < C.iu := fun h =>
    ⟨not_lt.mp fun h' => e3 ⟨h, h'⟩, not_le.mp fun h' => e4 ⟨h, h'⟩⟩
  have hs : skipTask C (cnt cp) (cnt u) (cnt u - cnt cp) = false := by
    unfold skipTask
    have h1 : ¬(cnt u - cnt cp < 1) := by omega
    rcases hr : C.rangeI with _ | _
    · simp [h1]
    · have := hR' hr
      have := hR hr
      have h2 : ¬(cnt u < C.il) := by omega
      have h3 : ¬(cnt cp > C.iu) := by omega
      simp only [h1, h2, h3, decide_false, Bool.or_self, Bool.and_false]
  rw [hs, if_neg (by simp)]
  obtain ⟨wr, r1, r2⟩ := ih _ mR cp u rfl hb.2 (by omega) (fun h => ⟨(hR h).1, (hR' h).2⟩)
  obtain ⟨wl, l1, l2⟩ := ih _ mL l cp rfl hb.1 (by omega) (fun h => ⟨(hR' h).1, (hR h).2⟩)
  rw [r1, l1]
  refine ⟨wl ++ wr, rfl, ?_, ?_, ?_, ?_⟩
  · intro w hw
    rcases List.mem_append.mp hw with h | h
    · obtain ⟨a1, a2, v', a3, a4, a5⟩ := l2.each w h
      exact ⟨a1, a2, v', a3, a4.trans hb.2.le, a5⟩
    · obtain ⟨a1, a2, a5⟩ := r2.each w h
      exact ⟨a1, hb.1.le.trans a2, a5⟩
  · rw [List.pairwise_append]
    refine ⟨l2.order, r2.order, fun w hw w' hw' => ?_⟩
    obtain ⟨a1, a2, v', a3, a4, a5, a6, _⟩ := l2.each w hw
    obtain ⟨b1, b2, v'', b3, b4, b5, b6, _⟩ := r2.each w' hw'
    have h1 := hm a4
    have h2 := hm b2
    exact ⟨by omega, lt_of_lt_of_le (lt_of_lt_of_le a3.lt a4) b2⟩
  · intro t h3 h4 h5
    rcases lt_or_ge t (cnt cp) with h | h
    · obtain ⟨w, hw, hh⟩ := l2.cover t h3 h h5
      exact ⟨w, List.mem_append_left _ hw, hh⟩
    · obtain ⟨w, hw, hh⟩ := r2.cover t h h4 h5
      exact ⟨w, List.mem_append_right _ hw, hh⟩
  · intro h
    rw [List.map_append, List.sum_append, l2.total h, r2.total h]; omega

theorem below_le {n : Nat} (A : Matrix (Fin n) (Fin n) ℝ) (u : ℝ) : below A u ≤ n := by
  classical
  unfold below
  refine (Multiset.countP_le_card _ _).trans ?_
  refine (Polynomial.card_roots' _).trans ?_
  rw [Matrix.charpoly_natDegree_eq_dim, Fintype.card_fin]

/-- **C48**, for a correct count of eigenvalues.  Floating point numbers `F` are embedded in the
reals by `toR`.  If the count is right at every number, then for a value range `[vl,vu)` the
number of eigenvalues expected is that in the range, and the bisection writes clusters in
ascending order, one for each number `v` with eigenvalues in `[v,v')`, `v'` the number after
`v`; the output index is the position in the spectrum, counted from the first in the range; the
recorded multiplicity is the number of eigenvalues in `[v,v')`; and they add up to all. -/
theorem C48_clusters {n : Nat} (A : Matrix (Fin n) (Fin n) ℝ) (M : Mid F) (toR : F → ℝ)
    (hto : StrictMono toR) (cnt : F → Int) (hcnt : ∀ f, cnt f = below A (toR f))
    (nxt : F → F) (gmin gmax : F) (hnx : gmax ⋖ nxt gmax) (h0 : below A (toR gmin) = 0)
    (h1 : below A (toR (nxt gmax)) = n) (vl vu : F) (hv : vl < vu) (il iu : Int) :
    ∃ ws, stevx2 M nxt cnt gmin gmax n false vl vu il iu =
        ((below A (toR vu) : Int) - below A (toR vl), some ws) ∧
      (∀ w ∈ ws, 1 ≤ w.mul ∧ 0 ≤ w.idx ∧ w.idx + w.mul ≤ (below A (toR vu) : Int) - below A (toR vl) ∧
        vl ≤ w.val ∧ w.val < vu ∧ (below A (toR w.val) : Int) = below A (toR vl) + w.idx ∧
        ∃ v', w.val ⋖ v' ∧ (below A (toR v') : Int) = below A (toR w.val) + w.mul) ∧
      (ws.Pairwise fun w w' => w.idx + w.mul ≤ w'.idx ∧ w.val < w'.val) ∧
      (ws.map (·.mul)).sum = (below A (toR vu) : Int) - below A (toR vl) := by
  have hm : Monotone cnt := fun a b h => by
    rw [hcnt, hcnt]; exact_mod_cast below_mono A (hto.monotone h)
  have hlt : cnt vl ≤ cnt vu := hm hv.le
  unfold stevx2 setup
  simp only [Bool.false_eq_true, if_false]
  obtain ⟨l, hl, hl1, hl2⟩ : ∃ l, (if vl ≥ gmin then (cnt vl, vl) else (0, gmin)) = (cnt vl, l) ∧
      vl ≤ l ∧ cnt l = cnt vl := by
    by_cases h : vl ≥ gmin
    · exact ⟨vl, by rw [if_pos h], le_rfl, rfl⟩
    · have h' : vl ≤ gmin := (not_le.mp h).le
      have e1 := hm h'
      have e2 : cnt gmin = 0 := by rw [hcnt, h0]; rfl
      have e3 : 0 ≤ cnt vl := by rw [hcnt]; exact Int.natCast_nonneg _
      have e4 : cnt vl = 0 := by omega
      exact ⟨gmin, by rw [if_neg h, e4], h', by omega⟩
  obtain ⟨u, hu, hu1, hu2⟩ : ∃ u, (if vu ≤ gmax then (cnt vu, vu) else ((n : Int), nxt gmax)) = (cnt vu, u) ∧
      u ≤ vu ∧ cnt u = cnt vu := by
    by_cases h : vu ≤ gmax
    · exact ⟨vu, by rw [if_pos h], le_rfl, rfl⟩
    · have h' : nxt gmax ≤ vu := hnx.ge_of_gt (not_le.mp h)
      have e1 := hm h'
      have e2 : cnt (nxt gmax) = n := by rw [hcnt, h1]
      have e3 : cnt vu ≤ n := by rw [hcnt]; exact_mod_cast below_le A _
      have e4 : cnt vu = n := by omega
      exact ⟨nxt gmax, by rw [if_neg h, e4], h', by omega⟩
  rw [hl, hu]
  simp only
  rw [← hcnt vl, ← hcnt vu]
  unfold laebz2
  rw [hl2, hu2]
  by_cases hs : cnt vl < cnt vu
  · have hsk : skipTask ⟨false, il, iu, cnt vl⟩ (cnt vl) (cnt vu) (cnt vu - cnt vl) = false := by
      have : ¬(cnt vu - cnt vl < 1) := by omega
      simp [skipTask, this]
    rw [hsk, if_neg (by simp)]
    have hlu : l < u := by
      by_contra h
      have := hm (not_lt.mp h)
      omega
    obtain ⟨ws, e1, e2⟩ := bisect_clusters M hm ⟨false, il, iu, cnt vl⟩ (fun h => by cases h) _ l u rfl
      hlu (by omega) (fun h => by cases h)
    rw [hl2, hu2] at e1
    refine ⟨ws, by rw [e1], ?_, e2.order, ?_⟩
    · intro w hw
      obtain ⟨a1, a2, v', a3, a4, a5, a6, _⟩ := e2.each w hw
      have hoff : Control.off ⟨false, il, iu, cnt vl⟩ = cnt vl := by simp [Control.off]
      rw [hoff] at a5 a6
      have b1 := hm a2
      have b2 := hm a4
      refine ⟨a1, by omega, by omega, hl1.trans a2, lt_of_lt_of_le a3.lt (a4.trans hu1), ?_, v', a3, ?_⟩
      · rw [← hcnt]; omega
      · rw [← hcnt, ← hcnt]; omega
    · rw [e2.total rfl]; omega
  · have hsk : skipTask ⟨false, il, iu, cnt vl⟩ (cnt vl) (cnt vu) (cnt vu - cnt vl) = true := by
      have : cnt vu - cnt vl < 1 := by omega
      simp [skipTask, this]
    rw [hsk, if_pos rfl]
    refine ⟨[], rfl, by simp, List.Pairwise.nil, ?_⟩
    simp; omega

/-- **C48**, partial: with the count `plasma_zlaneg2` computes, the conclusions of `C48_clusters`
hold for matrices without zeros next to the diagonal if no number tested is an eigenvalue.
`C48_stevx2_refuted_*` show that they fail without. -/
theorem C48_stevx2_partial {dv : ℝ → ℝ → ℝ} (hdv : IsDiv dv) {n : Nat} (d b : Nat → ℝ)
    (hb : ∀ i, i + 1 < n → b i ≠ 0) (M : Mid F) (toR : F → ℝ) (hto : StrictMono toR)
    (hev : ∀ f, (tri d b n - toR f • 1).det ≠ 0)
    (nxt : F → F) (gmin gmax : F) (hnx : gmax ⋖ nxt gmax) (h0 : below (tri d b n) (toR gmin) = 0)
    (h1 : below (tri d b n) (toR (nxt gmax)) = n) (vl vu : F) (hv : vl < vu) (il iu k : Int)
    (ws : List (Wr F)) (nEig : Int)
    (hrun : stevx2 M nxt (fun f => (laneg2 dv d b n (toR f) : Int)) gmin gmax n false vl vu il iu =
      (nEig, some ws)) (hk : nEig ≤ k) :
    nEig = (below (tri d b n) (toR vu) : Int) - below (tri d b n) (toR vl) ∧
    (∀ w ∈ ws, 0 ≤ w.idx ∧ w.idx < k) ∧
    (ws.Pairwise fun w w' => w.idx + w.mul ≤ w'.idx ∧ w.val < w'.val) ∧
    (ws.map (·.mul)).sum = nEig := by
  have hcnt : ∀ f, ((laneg2 dv d b n (toR f) : Nat) : Int) = below (tri d b n) (toR f) := by
    intro f
    rw [C50_laneg2_unreduced_partial hdv d b n _ hb, if_neg (fun h => hev f h.1)]; rfl
  obtain ⟨ws', e1, e2, e3, e4⟩ := C48_clusters (tri d b n) M toR hto _ hcnt nxt gmin gmax hnx h0 h1 vl vu hv il iu
  rw [e1] at hrun
  simp only [Prod.mk.injEq, Option.some.injEq] at hrun
  obtain ⟨rfl, rfl⟩ := hrun
  refine ⟨rfl, fun w hw => ?_, e3, e4⟩
  obtain ⟨a1, a2, a3, _⟩ := e2 w hw
  exact ⟨a2, by omega⟩

/-- **C49**, partial: for an index range and a correct count, every write is at an index at most
`iu-il`, and not negative if some floating point number separates the eigenvalues `il-1` and
`il`; the clusters are disjoint, in ascending order, and contain all the eigenvalues `il` to
`iu`.  Without the separation the index may be negative: `C49_stevx2_refuted`. -/
theorem C49_index_partial {n : Nat} (A : Matrix (Fin n) (Fin n) ℝ) (M : Mid F) (toR : F → ℝ)
    (hto : StrictMono toR) (cnt : F → Int) (hcnt : ∀ f, cnt f = below A (toR f))
    (nxt : F → F) (gmin gmax : F) (h0 : below A (toR gmin) = 0)
    (h1 : below A (toR (nxt gmax)) = n) (vl vu : F) (il iu : Int) (hil : 1 ≤ il) (hiu : il ≤ iu)
    (hn : iu ≤ n) :
    ∃ ws, stevx2 M nxt cnt gmin gmax n true vl vu il iu = (iu + 1 - il, some ws) ∧
      (∀ w ∈ ws, 1 ≤ w.mul ∧ w.idx ≤ iu - il ∧
        (below A (toR w.val) : Int) = il - 1 + w.idx ∧
        (∃ v', w.val ⋖ v' ∧ (below A (toR v') : Int) = below A (toR w.val) + w.mul) ∧
        ((∃ f, (below A (toR f) : Int) = il - 1) → 0 ≤ w.idx)) ∧
      (ws.Pairwise fun w w' => w.idx + w.mul ≤ w'.idx ∧ w.val < w'.val) ∧
      (∀ t, 0 ≤ t → t ≤ iu - il → ∃ w ∈ ws, w.idx ≤ t ∧ t < w.idx + w.mul) := by
  have hm : Monotone cnt := fun a b h => by
    rw [hcnt, hcnt]; exact_mod_cast below_mono A (hto.monotone h)
  unfold stevx2 setup
  simp only [if_true]
  have e0 : cnt gmin = 0 := by rw [hcnt, h0]; rfl
  have en : cnt (nxt gmax) = n := by rw [hcnt, h1]
  unfold laebz2
  have hsk : skipTask ⟨true, il, iu, 0⟩ (cnt gmin) (cnt (nxt gmax)) (cnt (nxt gmax) - cnt gmin) = false := by
    have h1 : ¬(cnt (nxt gmax) - cnt gmin < 1) := by omega
    have h2 : ¬(cnt (nxt gmax) < il) := by omega
    have h3 : ¬(cnt gmin > iu) := by omega
    simp only [skipTask, h1, h2, h3, decide_false, Bool.or_self, Bool.and_false]
  rw [hsk, if_neg (by simp)]
  have hlu : gmin < nxt gmax := by
    by_contra h
    have := hm (not_lt.mp h)
    omega
  obtain ⟨ws, e1, e2⟩ := bisect_clusters M hm ⟨true, il, iu, 0⟩ (fun _ => hiu) _ gmin (nxt gmax) rfl
    hlu (by omega) (fun _ => ⟨by show il ≤ _; omega, by show _ < iu; omega⟩)
  have hoff : Control.off ⟨true, il, iu, 0⟩ = il - 1 := by simp [Control.off]
  refine ⟨ws, by rw [e1], ?_, e2.order, ?_⟩
  · intro w hw
    obtain ⟨a1, a2, v', a3, a4, a5, a6, a7⟩ := e2.each w hw
    obtain ⟨a7, a8⟩ := a7 rfl
    rw [hoff] at a5 a6
    simp only at a7 a8
    refine ⟨a1, by omega, by rw [← hcnt]; omega, ⟨v', a3, by rw [← hcnt, ← hcnt]; omega⟩, ?_⟩
    rintro ⟨f, hf⟩
    rw [← hcnt] at hf
    by_contra hneg
    have hvf : w.val < f := by
      by_contra h
      have := hm (not_lt.mp h)
      omega
    have := hm (a3.ge_of_gt hvf)
    omega
  · intro t ht1 ht2
    obtain ⟨w, hw, b1, b2⟩ := e2.cover (t + (il - 1)) (by omega) (by omega)
      (fun _ => ⟨by show il - 1 ≤ _; omega, by show _ < iu; omega⟩)
    rw [hoff] at b1 b2
    exact ⟨w, hw, by omega, by omega⟩

end

/-- Bisection on the integers. -/
def zMid : Mid Int where
  mid l u := (l + u) / 2
  lo l u h := by omega
  hi l u h := by omega
  strict l u x h1 h2 := by omega

/-- The count `plasma_zlaneg2` computes at an integer. -/
noncomputable def zcnt (d b : Nat → ℝ) (n : Nat) (z : Int) : Int := (laneg2 rdiv d b n (z : ℝ) : Int)

theorem changes_rec {p : Nat → ℝ} {k c : Nat} (h : changes p k = c) :
    (chg p k → changes p (k + 1) = c + 1) ∧ (¬chg p k → changes p (k + 1) = c) :=
  ⟨fun h' => by rw [changes_pos h', h], fun h' => by rw [changes_neg h', h]⟩

/-- `diag(8,24,16,16)`. -/
def dEx4 : Nat → ℝ := fun i => if i = 0 then 8 else if i = 1 then 24 else 16

theorem zcnt_ex4 : zcnt dEx4 (fun _ => 0) 4 10 = 1 ∧ zcnt dEx4 (fun _ => 0) 4 13 = 1 ∧
    zcnt dEx4 (fun _ => 0) 4 15 = 1 ∧ zcnt dEx4 (fun _ => 0) 4 16 = 2 ∧
    zcnt dEx4 (fun _ => 0) 4 17 = 3 ∧ zcnt dEx4 (fun _ => 0) 4 24 = 2 := by
  have key : ∀ z : Int, zcnt dEx4 (fun _ => 0) 4 z =
      (changes (minor (fun i => dEx4 i - (z : ℝ)) fun _ => 0) 4 : Int) := by
    intro z; unfold zcnt; rw [laneg2_changes rdiv_isDiv]
  simp only [key, changes, chg, minor, dEx4]
  norm_num

/-- **C48** is false in general: for `diag(8,24,16,16)` and the range `[10,24)` the number of
eigenvalues expected, which `k` is compared with, is 1, but index 1 is written. -/
theorem C48_stevx2_refuted_overflow :
    stevx2 zMid (· + 1) (zcnt dEx4 (fun _ => 0) 4) 8 24 4 false 10 24 0 0 =
      (1, some [⟨0, 15, 1⟩, ⟨1, 16, 1⟩]) := by
  obtain ⟨h10, h13, h15, h16, h17, h24⟩ := zcnt_ex4
  simp only [stevx2, setup, laebz2]
  norm_num [h10, h24, skipTask]
  rw [bisect]; norm_num [zMid, h17, h16]
  rw [bisect]; norm_num [zMid, h17, h16, h13]
  rw [bisect]; norm_num [zMid, h17, h16, h13, h15]
  rw [bisect]; norm_num [zMid, h17, h16, h13, h15, skipTask]
  rw [bisect]; norm_num [zMid]
  rw [bisect]; norm_num [zMid]

/-- **C48** is false in general: for `diag(2,1)` and the range `[1,2)` nothing is found though
the eigenvalue 1 is in the range. -/
theorem C48_stevx2_refuted_missing :
    stevx2 zMid (· + 1) (zcnt dEx (fun _ => 0) 2) 1 2 2 false 1 2 0 0 = (0, some []) ∧
    (tri dEx (fun _ => 0) 2 - (1 : ℝ) • 1).det = 0 := by
  constructor
  · have key : ∀ z : Int, zcnt dEx (fun _ => 0) 2 z =
        (changes (minor (fun i => dEx i - (z : ℝ)) fun _ => 0) 2 : Int) := by
      intro z; unfold zcnt; rw [laneg2_changes rdiv_isDiv]
    have h1 : zcnt dEx (fun _ => 0) 2 1 = 0 := by
      simp only [key, changes, chg, minor, dEx]; norm_num
    have h2 : zcnt dEx (fun _ => 0) 2 2 = 0 := by
      simp only [key, changes, chg, minor, dEx]; norm_num
    simp only [stevx2, setup, laebz2]
    norm_num [h1, h2, skipTask]
  · rw [tri_shift, det_tri]; simp [minor, dEx]

/-- The hypotheses of `C48_stevx2_partial` (and with them those of `C48_clusters` and
`C49_index_partial`) hold for `[[1/2,1],[1,1/2]]`, whose eigenvalues are -1/2 and 3/2, and the
integers as floating point numbers. -/
example : let d : Nat → ℝ := fun _ => 1 / 2
    let b : Nat → ℝ := fun _ => 1
    (∀ i, i + 1 < 2 → b i ≠ 0) ∧ StrictMono (fun z : Int => (z : ℝ)) ∧
    (∀ f : Int, (tri d b 2 - (f : ℝ) • 1).det ≠ 0) ∧ (1 : Int) ⋖ 1 + 1 ∧
    below (tri d b 2) ((-1 : Int) : ℝ) = 0 ∧ below (tri d b 2) ((1 + 1 : Int) : ℝ) = 2 := by
  intro d b
  have hb : ∀ i, i + 1 < 2 → b i ≠ 0 := fun _ _ => one_ne_zero
  have hd : ∀ f : Int, (tri d b 2 - (f : ℝ) • 1).det ≠ 0 := by
    intro f h
    rw [tri_shift, det_tri] at h
    simp only [minor, d, b] at h
    have h' : ((1 - 2 * f) * (1 - 2 * f) : ℝ) = 4 := by nlinarith [h]
    have h'' : (1 - 2 * f) * (1 - 2 * f) = (4 : Int) := by exact_mod_cast h'
    have : (1 - 2 * f) * (1 - 2 * f) = 1 + 4 * (f * f - f) := by ring
    omega
  have hc : ∀ f : Int, below (tri d b 2) (f : ℝ) = changes (minor (fun i => d i - (f : ℝ)) b) 2 := by
    intro f
    rw [← laneg2_changes rdiv_isDiv, C50_laneg2_unreduced_partial rdiv_isDiv d b 2 _ hb,
      if_neg (fun h => hd f h.1)]; rfl
  refine ⟨hb, Int.cast_strictMono, hd, Order.covBy_add_one _, ?_, ?_⟩
  · rw [hc]; simp only [changes, chg, minor, d, b]; norm_num
  · rw [hc]; simp only [changes, chg, minor, d, b]; norm_num

/-- **C49** is false in general: for the identity of order 2 and `il = iu = 2` the only
eigenvalue is written at index -1. -/
theorem C49_stevx2_refuted :
    stevx2 zMid (· + 1) (zcnt (fun _ => 1) (fun _ => 0) 2) 1 1 2 true 0 0 2 2 =
      (1, some [⟨-1, 1, 2⟩]) := by
  have key : ∀ z : Int, zcnt (fun _ => 1) (fun _ => 0) 2 z =
      (changes (minor (fun _ => 1 - (z : ℝ)) fun _ => 0) 2 : Int) := by
    intro z; unfold zcnt; rw [laneg2_changes rdiv_isDiv]
  have h1 : zcnt (fun _ => 1) (fun _ => 0) 2 1 = 0 := by
    simp only [key, changes, chg, minor]; norm_num
  have h2 : zcnt (fun _ => 1) (fun _ => 0) 2 2 = 2 := by
    simp only [key, changes, chg, minor]; norm_num
  simp only [stevx2, setup, laebz2]
  norm_num [h1, h2, skipTask]
  rw [bisect]; norm_num [zMid]

/-! ### C51 -/

/-- **C51** is false: whenever eigenvalues only are asked for and the arguments pass the checks,
`stein_arrays` is dereferenced though it is NULL; and the eigenvector array is accessed whenever
an eigenvalue was found. -/
theorem C51_noVec_refuted (n : Nat) (k nEig : Int) (pVecNull qrOk : Bool) (found threads : Nat)
    (hn : 0 < n) (hk : nEig ≤ k) (ht : 0 < threads) :
    steinNull .noVec = true ∧
    Acc.stein 0 ∈ tailAccesses .noVec n k nEig false false pVecNull found threads qrOk ∧
    (0 < found → Acc.vec ∈ tailAccesses .noVec n k nEig false false pVecNull found threads qrOk) := by
  refine ⟨rfl, ?_, ?_⟩
  · unfold tailAccesses
    rw [if_neg (by omega), if_neg (by simp), if_neg (by omega), if_neg (by simp)]
    apply List.mem_append_right
    exact List.mem_map.mpr ⟨0, List.mem_range.mpr ht, rfl⟩
  · intro hf
    unfold tailAccesses
    rw [if_neg (by omega), if_neg (by simp), if_neg (by omega), if_neg (by simp), if_neg (by omega : ¬found = 0)]
    simp

/-- **C51**, partial: what does hold.  Counting touches neither array, nor do calls rejected;
and `stein_arrays` is allocated when eigenvectors are computed. -/
theorem C51_count_partial (n : Nat) (k nEig : Int) (pValNull pMulNull pVecNull qrOk : Bool)
    (found threads : Nat) :
    tailAccesses .count n k nEig pValNull pMulNull pVecNull found threads qrOk = [] ∧
    (k < nEig → tailAccesses .noVec n k nEig pValNull pMulNull pVecNull found threads qrOk = []) ∧
    (pVecNull = true → tailAccesses .vec n k nEig pValNull pMulNull pVecNull found threads qrOk = []) ∧
    steinNull .vec = false := by
  refine ⟨?_, ?_, ?_, rfl⟩
  · unfold tailAccesses; split <;> simp
  · intro h; unfold tailAccesses; split
    · rfl
    · rw [if_neg (by simp)]
  · intro h; unfold tailAccesses; split
    · rfl
    · rw [if_neg (by simp)]
      split
      · rfl
      · rw [if_pos (Or.inr (Or.inr ⟨rfl, h⟩))]

/-- A call `C51_noVec_refuted` speaks of: order 3, room for 3, 3 eigenvalues, 4 threads. -/
example : Acc.stein 0 ∈ tailAccesses .noVec 3 3 3 false false true 3 4 true :=
  (C51_noVec_refuted 3 3 3 true true 3 4 (by omega) (by omega) (by omega)).2.1

end Verif.Props

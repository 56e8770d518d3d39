/-
Number of negative eigenvalues of real symmetric tridiagonal matrices and sign changes in the
sequence of leading principal minors.  Mathematics only, no program text.
-/
import Mathlib.LinearAlgebra.QuadraticForm.Signature
import Mathlib.LinearAlgebra.Matrix.Determinant.Basic
import Mathlib.Analysis.Matrix.Spectrum
import Mathlib.LinearAlgebra.QuadraticForm.Basic

namespace Verif.Sturm

open Matrix Finset

/-- Symmetric tridiagonal matrix of order `n` with diagonal `d` and off-diagonal `b`. -/
def tri (d b : Nat → ℝ) (n : Nat) : Matrix (Fin n) (Fin n) ℝ := fun i j =>
  if (i : Nat) = j then d i else if (i : Nat) + 1 = j then b i else if (j : Nat) + 1 = i then b j else 0

/-- Number of roots of the characteristic polynomial below `u`, with multiplicity. -/
noncomputable def below {n : Nat} (A : Matrix (Fin n) (Fin n) ℝ) (u : ℝ) : Nat :=
  open Classical in A.charpoly.roots.countP (· < u)

theorem tri_herm (d b : Nat → ℝ) (n : Nat) : (tri d b n).IsHermitian := by
  ext i j
  simp only [tri, conjTranspose_apply, star_trivial]
  by_cases h : (i : Nat) = j
  · have : i = j := Fin.ext h
    subst this; simp
  · rw [if_neg h, if_neg (fun h' => h h'.symm)]
    by_cases h1 : (i : Nat) + 1 = j
    · rw [if_neg (by omega), if_pos h1, if_pos h1]
    · by_cases h2 : (j : Nat) + 1 = i
      · rw [if_pos h2, if_neg h1, if_pos h2]
      · rw [if_neg h2, if_neg h1, if_neg h1, if_neg h2]

/-- The recurrence of the leading principal minors of `tri d b n`. -/
def minor (d b : Nat → ℝ) : Nat → ℝ
  | 0 => 1
  | 1 => d 0
  | k + 2 => d (k + 1) * minor d b (k + 1) - b k * b k * minor d b k

theorem tri_sub (d b : Nat → ℝ) (n : Nat) :
    (tri d b (n + 1)).submatrix Fin.castSucc Fin.castSucc = tri d b n := by
  ext i j; simp [tri]

theorem det_tri (d b : Nat → ℝ) : ∀ n, (tri d b n).det = minor d b n
  | 0 => by simp [minor]
  | 1 => by simp [minor, tri]
  | n + 2 => by
    rw [minor, ← det_tri d b (n + 1), ← det_tri d b n, det_succ_row _ (Fin.last (n + 1)),
      Fin.sum_univ_castSucc, Fin.sum_univ_castSucc]
    have h0 : ∀ j : Fin n, tri d b (n + 2) (Fin.last (n + 1)) j.castSucc.castSucc = 0 := by
      intro j
      have := j.2
      simp only [tri, Fin.val_last, Fin.val_castSucc]
      rw [if_neg (by omega), if_neg (by omega), if_neg (by omega)]
    have h1 : tri d b (n + 2) (Fin.last (n + 1)) (Fin.last n).castSucc = b n := by
      simp only [tri, Fin.val_last, Fin.val_castSucc]
      rw [if_neg (by omega), if_neg (by omega), if_pos trivial]
    have h2 : tri d b (n + 2) (Fin.last (n + 1)) (Fin.last (n + 1)) = d (n + 1) := by
      simp [tri]
    have h3 : ((tri d b (n + 2)).submatrix (Fin.last (n + 1)).succAbove
        (Fin.last n).castSucc.succAbove).det = b n * (tri d b n).det := by
      rw [det_succ_column _ (Fin.last n), Fin.sum_univ_castSucc]
      have h4 : ∀ i : Fin n, (tri d b (n + 2)).submatrix (Fin.last (n + 1)).succAbove
          (Fin.last n).castSucc.succAbove i.castSucc (Fin.last n) = 0 := by
        intro i
        have := i.2
        simp only [submatrix_apply, Fin.succAbove_last, tri, Fin.val_castSucc,
          Fin.succAbove_castSucc_self, Fin.succ_last, Fin.val_last]
        rw [if_neg (by omega), if_neg (by omega), if_neg (by omega)]
      have h5 : (tri d b (n + 2)).submatrix (Fin.last (n + 1)).succAbove
          (Fin.last n).castSucc.succAbove (Fin.last n) (Fin.last n) = b n := by
        simp only [submatrix_apply, Fin.succAbove_last, tri, Fin.val_castSucc,
          Fin.succAbove_castSucc_self, Fin.succ_last, Fin.val_last]
        rw [if_neg (by omega), if_pos trivial]
      rw [Finset.sum_eq_zero (fun i _ => by rw [h4]; ring), h5]
      have h6 : ((tri d b (n + 2)).submatrix (Fin.last (n + 1)).succAbove
          (Fin.last n).castSucc.succAbove).submatrix (Fin.last n).succAbove (Fin.last n).succAbove =
          tri d b n := by
        ext i j
        have := j.2
        have hj : (Fin.last n).castSucc.succAbove j.castSucc = j.castSucc.castSucc := by
          apply Fin.succAbove_of_castSucc_lt
          simp [Fin.lt_def]
        simp [hj, tri]
      rw [h6]
      simp only [Fin.val_last, zero_add]
      rw [show n + n = 2 * n by ring, pow_mul]
      norm_num
    rw [Finset.sum_eq_zero (fun i _ => by rw [h0]; ring), h1, h2, h3]
    have h7 : (tri d b (n + 2)).submatrix (Fin.last (n + 1)).succAbove (Fin.last (n + 1)).succAbove =
        tri d b (n + 1) := by
      ext i j; simp [tri]
    rw [h7]
    simp only [Fin.val_last, Fin.val_castSucc, zero_add]
    rw [show n + 1 + n = 2 * n + 1 by ring, show n + 1 + (n + 1) = 2 * (n + 1) by ring, pow_succ,
      pow_mul, pow_mul]
    norm_num
    ring

/-- Quadratic form of a matrix. -/
noncomputable def qf {n : Nat} (A : Matrix (Fin n) (Fin n) ℝ) : QuadraticForm ℝ (Fin n → ℝ) :=
  A.toQuadraticForm'

theorem qf_apply {n : Nat} (A : Matrix (Fin n) (Fin n) ℝ) (x : Fin n → ℝ) :
    qf A x = x ⬝ᵥ A *ᵥ x := by
  unfold qf Matrix.toQuadraticForm'
  rw [LinearMap.BilinMap.toQuadraticMap_apply, Matrix.toLinearMap₂'_apply']

theorem qf_shift {n : Nat} {A : Matrix (Fin n) (Fin n) ℝ} (hA : A.IsHermitian) (u : ℝ) :
    QuadraticMap.Equivalent (qf (A - u • 1))
      (QuadraticMap.weightedSumSquares ℝ fun i => hA.eigenvalues i - u) := by
  have h1 : star (hA.eigenvectorUnitary : Matrix (Fin n) (Fin n) ℝ) * (hA.eigenvectorUnitary : Matrix (Fin n) (Fin n) ℝ) = 1 :=
    Unitary.coe_star_mul_self _
  have h2 : (hA.eigenvectorUnitary : Matrix (Fin n) (Fin n) ℝ) * star (hA.eigenvectorUnitary : Matrix (Fin n) (Fin n) ℝ) = 1 :=
    Unitary.coe_mul_star_self _
  have hs : A = (hA.eigenvectorUnitary : Matrix (Fin n) (Fin n) ℝ) * diagonal hA.eigenvalues *
      star (hA.eigenvectorUnitary : Matrix (Fin n) (Fin n) ℝ) := by
    have := hA.spectral_theorem
    rw [Unitary.conjStarAlgAut_apply] at this
    exact this
  generalize (hA.eigenvectorUnitary : Matrix (Fin n) (Fin n) ℝ) = U at h1 h2 hs
  have hs' : A - u • 1 = U * diagonal (fun i => hA.eigenvalues i - u) * star U := by
    have : diagonal (fun i => hA.eigenvalues i - u) = diagonal hA.eigenvalues - u • 1 := by
      rw [← diagonal_one, ← diagonal_smul, diagonal_sub]
      congr 1; ext i; simp
    rw [this, mul_sub, sub_mul, ← hs, mul_smul_comm, mul_one, smul_mul_assoc, h2]
  refine ⟨⟨Matrix.toLin'OfInv h2 h1, ?_⟩⟩
  intro x
  show QuadraticMap.weightedSumSquares ℝ _ (star U *ᵥ x) = qf (A - u • 1) x
  rw [QuadraticMap.weightedSumSquares_apply, qf_apply, hs']
  rw [← mulVec_mulVec, ← mulVec_mulVec, dotProduct_mulVec, ← mulVec_transpose]
  simp only [dotProduct, mulVec_diagonal, smul_eq_mul]
  have : star U = Uᵀ := by ext i j; simp [star_apply]
  rw [this]
  exact Finset.sum_congr rfl fun i _ => by ring

theorem qf_equiv {n : Nat} {A : Matrix (Fin n) (Fin n) ℝ} (hA : A.IsHermitian) :
    QuadraticMap.Equivalent (qf A) (QuadraticMap.weightedSumSquares ℝ hA.eigenvalues) := by
  have := qf_shift hA 0
  simpa using this

/-- Number of indices with negative weight. -/
noncomputable def negs {n : Nat} (A : Matrix (Fin n) (Fin n) ℝ) : Nat := sigNeg (qf A)
noncomputable def poss {n : Nat} (A : Matrix (Fin n) (Fin n) ℝ) : Nat := sigPos (qf A)

theorem negs_eq {n : Nat} {A : Matrix (Fin n) (Fin n) ℝ} (hA : A.IsHermitian) :
    negs A = (univ.filter fun i => hA.eigenvalues i < 0).card := by
  unfold negs
  rw [QuadraticForm.sigNeg_of_equiv_weightedSumSquares (qf_equiv hA), Set.ncard_eq_toFinset_card']
  congr 1; ext i; simp

theorem poss_eq {n : Nat} {A : Matrix (Fin n) (Fin n) ℝ} (hA : A.IsHermitian) :
    poss A = (univ.filter fun i => 0 < hA.eigenvalues i).card := by
  unfold poss
  rw [QuadraticForm.sigPos_of_equiv_weightedSumSquares (qf_equiv hA), Set.ncard_eq_toFinset_card']
  congr 1; ext i; simp

theorem negs_shift {n : Nat} {A : Matrix (Fin n) (Fin n) ℝ} (hA : A.IsHermitian) (u : ℝ) :
    negs (A - u • 1) = below A u := by
  classical
  unfold negs below
  rw [QuadraticForm.sigNeg_of_equiv_weightedSumSquares (qf_shift hA u), Set.ncard_eq_toFinset_card',
    hA.roots_charpoly_eq_eigenvalues, Multiset.countP_map]
  simp only [Function.comp_apply, RCLike.ofReal_real_eq_id, id]
  rw [show Multiset.filter (fun i => hA.eigenvalues i < u) Finset.univ.val =
    (Finset.univ.filter fun i => hA.eigenvalues i < u).val from rfl]
  rw [← Finset.card_def]
  congr 1; ext i; simp [sub_neg]

theorem tri_shift (d b : Nat → ℝ) (n : Nat) (u : ℝ) :
    tri d b n - u • 1 = tri (fun i => d i - u) b n := by
  ext i j
  simp only [tri, Matrix.sub_apply, Matrix.smul_apply, smul_eq_mul]
  by_cases h : i = j
  · subst h; simp
  · rw [one_apply_ne h, if_neg (fun h' => h (Fin.ext h')), if_neg (fun h' => h (Fin.ext h'))]; simp

/-- Sign of the determinant. -/
theorem det_sign {n : Nat} {A : Matrix (Fin n) (Fin n) ℝ} (hA : A.IsHermitian) (h : A.det ≠ 0) :
    0 < (-1) ^ negs A * A.det := by
  rw [negs_eq hA, hA.det_eq_prod_eigenvalues]
  rw [hA.det_eq_prod_eigenvalues] at h
  simp only [RCLike.ofReal_real_eq_id, id] at h ⊢
  rw [← Finset.prod_filter_mul_prod_filter_not univ (fun i => hA.eigenvalues i < 0), ← mul_assoc,
    ← Finset.prod_const, ← Finset.prod_mul_distrib]
  apply mul_pos
  · apply Finset.prod_pos
    intro i hi
    have := (Finset.mem_filter.mp hi).2
    linarith
  · apply Finset.prod_pos
    intro i hi
    have h0 := (Finset.prod_ne_zero_iff.mp h) i (mem_univ _)
    have := (Finset.mem_filter.mp hi).2
    exact lt_of_le_of_ne (not_lt.mp this) (Ne.symm h0)

theorem inertia_le {n : Nat} {A : Matrix (Fin n) (Fin n) ℝ} (hA : A.IsHermitian) :
    negs A + poss A ≤ n := by
  rw [negs_eq hA, poss_eq hA, ← Finset.card_union_of_disjoint]
  · exact (Finset.card_le_univ _).trans (by simp)
  · rw [Finset.disjoint_filter]; intro i _ h1 h2; linarith

theorem inertia_full {n : Nat} {A : Matrix (Fin n) (Fin n) ℝ} (hA : A.IsHermitian) (h : A.det ≠ 0) :
    negs A + poss A = n := by
  rw [negs_eq hA, poss_eq hA, ← Finset.card_union_of_disjoint]
  · rw [← Finset.filter_or]
    rw [Finset.filter_true_of_mem]
    · simp
    · intro i _
      rw [hA.det_eq_prod_eigenvalues] at h
      have h0 := (Finset.prod_ne_zero_iff.mp h) i (mem_univ _)
      simp only [RCLike.ofReal_real_eq_id, id] at h0
      exact lt_or_gt_of_ne h0
  · rw [Finset.disjoint_filter]; intro i _ h1 h2; linarith

theorem inertia_lt {n : Nat} {A : Matrix (Fin n) (Fin n) ℝ} (hA : A.IsHermitian) (h : A.det = 0) :
    negs A + poss A < n := by
  rw [negs_eq hA, poss_eq hA, ← Finset.card_union_of_disjoint]
  · rw [← Finset.filter_or]
    rw [hA.det_eq_prod_eigenvalues, Finset.prod_eq_zero_iff] at h
    obtain ⟨i, -, hi⟩ := h
    simp only [RCLike.ofReal_real_eq_id, id] at hi
    have : (univ.filter fun i => hA.eigenvalues i < 0 ∨ 0 < hA.eigenvalues i) ⊂ univ := by
      rw [Finset.ssubset_univ_iff]
      intro h'
      have := h' ▸ Finset.mem_univ i
      rw [Finset.mem_filter] at this
      rcases this.2 with h | h <;> linarith
    simpa using Finset.card_lt_card this
  · rw [Finset.disjoint_filter]; intro i _ h1 h2; linarith

/-- Embedding of the leading coordinates. -/
def emb (n : Nat) : (Fin n → ℝ) →ₗ[ℝ] (Fin (n + 1) → ℝ) where
  toFun x := Fin.snoc x 0
  map_add' x y := by
    ext i; refine Fin.lastCases ?_ (fun i => ?_) i <;> simp
  map_smul' c x := by
    ext i; refine Fin.lastCases ?_ (fun i => ?_) i <;> simp

theorem emb_inj (n : Nat) : Function.Injective (emb n) := by
  intro x y h
  ext i
  have := congrFun h i.castSucc
  simpa [emb] using this

theorem qf_emb {n : Nat} (A : Matrix (Fin (n + 1)) (Fin (n + 1)) ℝ) (x : Fin n → ℝ) :
    qf A (emb n x) = qf (A.submatrix Fin.castSucc Fin.castSucc) x := by
  rw [qf_apply, qf_apply]
  simp [dotProduct, mulVec, Fin.sum_univ_castSucc, emb]

theorem sig_mono {n : Nat} {Q : QuadraticForm ℝ (Fin n → ℝ)} {Q' : QuadraticForm ℝ (Fin (n + 1) → ℝ)}
    (h : ∀ x, Q' (emb n x) = Q x) : sigPos Q ≤ sigPos Q' := by
  obtain ⟨V, hV, hp⟩ := exists_finrank_eq_sigPos_and_posDef Q
  rw [← hV, (Submodule.equivMapOfInjective (emb n) (emb_inj n) V).finrank_eq]
  apply le_sigPos_of_posDef
  rintro ⟨y, x, hx, rfl⟩ hy
  rw [QuadraticMap.restrict_apply]
  show 0 < Q' (emb n x)
  rw [h]
  have := hp ⟨x, hx⟩ (by
    intro h0
    apply hy
    have : x = 0 := by simpa using h0
    simp [this])
  exact this

theorem sig_succ {n : Nat} {Q : QuadraticForm ℝ (Fin n → ℝ)} {Q' : QuadraticForm ℝ (Fin (n + 1) → ℝ)}
    (h : ∀ x, Q' (emb n x) = Q x) : sigPos Q' ≤ sigPos Q + 1 := by
  obtain ⟨V, hV, hp⟩ := exists_finrank_eq_sigPos_and_posDef Q'
  have h1 : Module.finrank ℝ (V.comap (emb n)) ≤ sigPos Q := by
    apply le_sigPos_of_posDef
    rintro ⟨x, hx⟩ hy
    rw [QuadraticMap.restrict_apply]
    show 0 < Q x
    rw [← h]
    refine hp ⟨emb n x, hx⟩ ?_
    intro h0
    apply hy
    have h0 : emb n x = 0 := by simpa using h0
    have : x = 0 := emb_inj n (by rw [h0, map_zero])
    simp [this]
  have h2 : Module.finrank ℝ (V.comap (emb n)) =
      Module.finrank ℝ (LinearMap.range (emb n) ⊓ V : Submodule ℝ (Fin (n + 1) → ℝ)) := by
    rw [(Submodule.equivMapOfInjective (emb n) (emb_inj n) _).finrank_eq, Submodule.map_comap_eq]
  have h3 := Submodule.finrank_sup_add_finrank_inf_eq (LinearMap.range (emb n)) V
  have h4 : Module.finrank ℝ (LinearMap.range (emb n)) = n := by
    rw [LinearMap.finrank_range_of_inj (emb_inj n)]; simp
  have h5 : Module.finrank ℝ (LinearMap.range (emb n) ⊔ V : Submodule ℝ (Fin (n + 1) → ℝ)) ≤ n + 1 := by
    refine (Submodule.finrank_le _).trans ?_
    simp
  omega

theorem negs_mono (d b : Nat → ℝ) (n : Nat) : negs (tri d b n) ≤ negs (tri d b (n + 1)) := by
  apply sig_mono
  intro x
  rw [_root_.neg_apply, _root_.neg_apply, qf_emb, tri_sub]

theorem negs_succ (d b : Nat → ℝ) (n : Nat) : negs (tri d b (n + 1)) ≤ negs (tri d b n) + 1 := by
  apply sig_succ
  intro x
  rw [_root_.neg_apply, _root_.neg_apply, qf_emb, tri_sub]

theorem poss_mono (d b : Nat → ℝ) (n : Nat) : poss (tri d b n) ≤ poss (tri d b (n + 1)) := by
  apply sig_mono
  intro x
  rw [qf_emb, tri_sub]

theorem negs_zero (d b : Nat → ℝ) : negs (tri d b 0) = 0 := by
  have := inertia_le (tri_herm d b 0)
  omega

/-- Sign change between two consecutive minors, zero counting as positive. -/
def chg (p : Nat → ℝ) (k : Nat) : Prop := (p (k + 1) < 0 ∧ 0 ≤ p k) ∨ (0 ≤ p (k + 1) ∧ p k < 0)

open Classical in
/-- Number of sign changes in `p 0, …, p n`. -/
noncomputable def changes (p : Nat → ℝ) : Nat → Nat
  | 0 => 0
  | k + 1 => changes p k + if chg p k then 1 else 0

theorem pow_sign {a : ℝ} {k : Nat} (h : 0 < (-1) ^ k * a) : (a < 0 ↔ k % 2 = 1) ∧ a ≠ 0 := by
  rcases Nat.mod_two_eq_zero_or_one k with hk | hk
  · rw [(Nat.even_iff.mpr hk).neg_one_pow] at h
    constructor
    · constructor
      · intro h'; linarith
      · intro h'; omega
    · intro h'; rw [h'] at h; simp at h
  · rw [(Nat.odd_iff.mpr hk).neg_one_pow] at h
    constructor
    · constructor
      · intro _; exact hk
      · intro _; linarith
    · intro h'; rw [h'] at h; simp at h

/-- Sturm: the number of sign changes is the number of negative eigenvalues, plus one if the
last minor vanishes and the one before is negative. -/
theorem changes_eq (d b : Nat → ℝ) : ∀ n, (∀ k, k < n → minor d b k = 0 → minor d b (k + 1) ≠ 0) →
    (minor d b n ≠ 0 → changes (minor d b) n = negs (tri d b n)) ∧
    (∀ m, n = m + 1 → minor d b n = 0 →
      negs (tri d b n) = negs (tri d b m) ∧ changes (minor d b) m = negs (tri d b m)) := by
  intro n
  induction n using Nat.strong_induction_on with
  | _ n ih =>
    intro hz
    match n with
    | 0 => exact ⟨fun _ => (negs_zero d b).symm, fun m h => by omega⟩
    | n + 1 =>
      have ih1 := ih n (by omega) (fun k hk => hz k (by omega))
      have hmono := negs_mono d b n
      have hsucc := negs_succ d b n
      constructor
      · intro hne
        have hs1 := det_sign (tri_herm d b (n + 1)) (by rw [det_tri]; exact hne)
        rw [det_tri] at hs1
        have hp1 := pow_sign hs1
        by_cases h0 : minor d b n = 0
        · -- a zero in front
          obtain ⟨m, rfl⟩ : ∃ m, n = m + 1 := by
            cases n with
            | zero => simp [minor] at h0
            | succ m => exact ⟨m, rfl⟩
          obtain ⟨h1, h2⟩ := ih1.2 m rfl h0
          have hm : minor d b m ≠ 0 := fun h => hz m (by omega) h h0
          have hs0 := det_sign (tri_herm d b m) (by rw [det_tri]; exact hm)
          rw [det_tri] at hs0
          have hp0 := pow_sign hs0
          have hrec : minor d b (m + 2) = -(b m * b m) * minor d b m := by
            rw [minor, h0]; ring
          have hb : 0 < b m * b m := by
            rcases lt_or_eq_of_le (mul_self_nonneg (b m)) with h | h
            · exact h
            · exfalso; apply hne; rw [hrec, ← h]; ring
          rw [changes, changes, h2]
          simp only [chg, h0]
          rcases lt_or_gt_of_ne hm with hlt | hgt
          · have hpos : 0 < minor d b (m + 2) := by rw [hrec]; nlinarith
            have := hp0.1.mp hlt
            have h3 := mt hp1.1.mpr (not_lt.mpr hpos.le)
            rw [if_pos (Or.inr ⟨le_refl _, hlt⟩), if_neg (by rintro (h | h) <;> [linarith [h.1]; linarith [h.2]])]
            rw [show m + 1 + 1 = m + 2 from rfl] at *
            omega
          · have hneg : minor d b (m + 2) < 0 := by rw [hrec]; nlinarith
            have := mt hp0.1.mpr (not_lt.mpr hgt.le)
            have h3 := hp1.1.mp hneg
            rw [if_neg (by rintro (h | h) <;> [linarith [h.1]; linarith [h.2]]), if_pos (Or.inl ⟨hneg, le_refl _⟩)]
            rw [show m + 1 + 1 = m + 2 from rfl] at *
            omega
        · have hc := ih1.1 h0
          have hs0 := det_sign (tri_herm d b n) (by rw [det_tri]; exact h0)
          rw [det_tri] at hs0
          have hp0 := pow_sign hs0
          rw [changes, hc]
          by_cases hg : chg (minor d b) n
          · rw [if_pos hg]
            rcases hg with ⟨h1, h2⟩ | ⟨h1, h2⟩
            · have := hp1.1.mp h1
              have := mt hp0.1.mpr (not_lt.mpr h2)
              omega
            · have := hp0.1.mp h2
              have := mt hp1.1.mpr (not_lt.mpr h1)
              omega
          · rw [if_neg hg]
            have : minor d b (n + 1) < 0 ↔ minor d b n < 0 := by
              constructor
              · intro h; by_contra h'; exact hg (Or.inl ⟨h, not_lt.mp h'⟩)
              · intro h; by_contra h'; exact hg (Or.inr ⟨not_lt.mp h', h⟩)
            have := hp1.1.symm.trans (this.trans hp0.1)
            omega
      · intro m hm h0
        obtain rfl : m = n := by omega
        have hne : minor d b m ≠ 0 := fun h => hz m (by omega) h h0
        have hc := ih1.1 hne
        refine ⟨?_, hc⟩
        have h1 := inertia_full (tri_herm d b m) (by rw [det_tri]; exact hne)
        have h2 := inertia_lt (tri_herm d b (m + 1)) (by rw [det_tri]; exact h0)
        have h3 := poss_mono d b m
        omega

end Verif.Sturm

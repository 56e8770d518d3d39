/-
Cholesky factors: definition, uniqueness, existence for positive definite matrices, and
the arithmetic of the right-looking blocked algorithm.
-/
import Verif.TriMath
import Mathlib.Analysis.Matrix.LDL
import Mathlib.LinearAlgebra.Matrix.Block
import Mathlib.LinearAlgebra.Matrix.PosDef

namespace Verif.Tile

open Finset

universe v

variable {𝕜 : Type v} [RCLike 𝕜]

/-- The real part, as a scalar. -/
noncomputable def reP (x : 𝕜) : 𝕜 := ((RCLike.re x : ℝ) : 𝕜)

theorem reP_isRe : RePart (reP : 𝕜 → 𝕜) where
  sa := by intro x; simp [reP]
  fix := by
    intro x hx
    exact RCLike.conj_eq_iff_re.mp hx

/-- The stored lower triangle with the imaginary part of the diagonal ignored. -/
noncomputable def hd (A : Nat → Nat → 𝕜) (r c : Nat) : 𝕜 := if r = c then reP (A r c) else A r c

/-- Positive real number. -/
def PosRe (x : 𝕜) : Prop := star x = x ∧ 0 < RCLike.re x

theorem PosRe.ne {x : 𝕜} (h : PosRe x) : x ≠ 0 := by
  rintro rfl; have := h.2; simp at this

/-- `L` is a Cholesky factor of order `n` of the Hermitian matrix with lower triangle `A`:
positive real diagonal and `L L^H = A`, on the lower triangle. -/
structure Chol (n : Nat) (A L : Nat → Nat → 𝕜) : Prop where
  pos : ∀ i, i < n → PosRe (L i i)
  eq : ∀ r c, c ≤ r → r < n → ∑ l ∈ range (c + 1), L r l * star (L c l) = hd A r c

/-- The Hermitian matrix of order `n` with lower triangle `A`. -/
noncomputable def hermM (n : Nat) (A : Nat → Nat → 𝕜) : Matrix (Fin n) (Fin n) 𝕜 :=
  Matrix.of fun i j => if (j : Nat) ≤ i then hd A i j else star (hd A j i)

theorem Chol.congr {n : Nat} {A A' L L' : Nat → Nat → 𝕜} (h : Chol n A L)
    (hA : ∀ r c, c ≤ r → r < n → A r c = A' r c) (hL : ∀ r c, c ≤ r → r < n → L r c = L' r c) :
    Chol n A' L' where
  pos := by intro i hi; rw [← hL i i (le_refl _) hi]; exact h.pos i hi
  eq := by
    intro r c hc hr
    have := h.eq r c hc hr
    unfold hd at this ⊢
    rw [← hA r c hc hr, ← this]
    refine sum_congr rfl fun l hl => ?_
    rw [mem_range] at hl
    rw [hL r l (by omega) hr, hL c l (by omega) (by omega)]

theorem Chol.mono {n m : Nat} {A L : Nat → Nat → 𝕜} (h : Chol n A L) (hm : m ≤ n) : Chol m A L where
  pos := fun i hi => h.pos i (by omega)
  eq := fun r c hc hr => h.eq r c hc (by omega)

/-- Two partial factorizations agree: if `L` and `L'` satisfy the equations of the first
`K` columns, these columns are equal. -/
theorem chol_unique {N K : Nat} {G L L' : Nat → Nat → 𝕜}
    (hp : ∀ c, c < K → c < N → PosRe (L c c)) (hp' : ∀ c, c < K → c < N → PosRe (L' c c))
    (h : ∀ r c, c ≤ r → r < N → c < K → ∑ l ∈ range (c + 1), L r l * star (L c l) = G r c)
    (h' : ∀ r c, c ≤ r → r < N → c < K → ∑ l ∈ range (c + 1), L' r l * star (L' c l) = G r c) :
    ∀ c, c < K → ∀ r, c ≤ r → r < N → L r c = L' r c := by
  intro c
  induction c using Nat.strong_induction_on with
  | _ c ih =>
    intro hc
    have hsum : ∀ r, c ≤ r → r < N → L r c * star (L c c) = L' r c * star (L' c c) := by
      intro r hr hrN
      have e1 := h r c hr hrN hc
      have e2 := h' r c hr hrN hc
      rw [sum_range_succ] at e1 e2
      have e3 : ∑ l ∈ range c, L r l * star (L c l) = ∑ l ∈ range c, L' r l * star (L' c l) := by
        refine sum_congr rfl fun l hl => ?_
        rw [mem_range] at hl
        rw [ih l hl (by omega) r (by omega) hrN, ih l hl (by omega) c (by omega) (by omega)]
      rw [e3] at e1
      exact add_left_cancel (e1.trans e2.symm)
    intro r hr hrN
    have hcN : c < N := by omega
    have hd := hsum c (le_refl _) hcN
    have p := hp c hc hcN
    have p' := hp' c hc hcN
    have hcc : L c c = L' c c := by
      have e1 := RCLike.conj_eq_iff_re.mp p.1
      have e2 := RCLike.conj_eq_iff_re.mp p'.1
      rw [p.1, p'.1, ← e1, ← e2] at hd
      rw [← e1, ← e2]
      congr 1
      have hd' : RCLike.re (L c c) * RCLike.re (L c c) = RCLike.re (L' c c) * RCLike.re (L' c c) := by
        exact_mod_cast hd
      nlinarith [p.2, p'.2, mul_self_eq_mul_self_iff.mp hd']
    have := hsum r hr hrN
    rw [hcc] at this
    have hne : star (L' c c) ≠ 0 := by rw [p'.1]; exact p'.ne
    exact mul_right_cancel₀ hne this

open scoped ComplexOrder in
/-- A Hermitian matrix is positive definite if it has a Cholesky factor. -/
theorem Chol.posDef {n : Nat} {A L : Nat → Nat → 𝕜} (h : Chol n A L) : (hermM n A).PosDef := by
  let T : Matrix (Fin n) (Fin n) 𝕜 := Matrix.of fun i j => if (j : Nat) ≤ i then L i j else 0
  have hT : T * T.conjTranspose = hermM n A := by
    have hlow : ∀ r c : Nat, (hc : c ≤ r) → (hr : r < n) →
        ∑ l : Fin n, T ⟨r, hr⟩ l * star (T ⟨c, by omega⟩ l) = hd A r c := by
      intro r c hc hr
      rw [← h.eq r c hc hr]
      have e : ∀ l : Fin n, T ⟨r, hr⟩ l * star (T ⟨c, by omega⟩ l) =
          (fun l : Nat => if l ≤ c then L r l * star (L c l) else 0) l := by
        intro l
        simp only [T, Matrix.of_apply]
        by_cases hlc : (l : Nat) ≤ c
        · rw [if_pos hlc, if_pos hlc, if_pos (by omega)]
        · rw [if_neg hlc, if_neg hlc]; simp
      rw [Finset.sum_congr rfl fun l _ => e l, Finset.sum_fin_eq_sum_range]
      rw [← Finset.sum_subset (s₁ := range (c + 1))]
      · refine sum_congr rfl fun l hl => ?_
        rw [mem_range] at hl
        rw [dif_pos (by omega)]
        dsimp only
        rw [if_pos (by omega)]
      · intro l hl; rw [mem_range] at *; omega
      · intro l hl hl'
        rw [mem_range] at *
        rw [dif_pos hl]
        dsimp only
        rw [if_neg (by omega)]
    ext i j
    simp only [Matrix.mul_apply, Matrix.conjTranspose_apply, hermM, Matrix.of_apply]
    split
    · rename_i hji
      exact hlow i j hji i.2
    · rename_i hji
      rw [← hlow j i (by omega) j.2, star_sum]
      refine sum_congr rfl fun l _ => ?_
      rw [star_mul', star_star, mul_comm]
  rw [← hT]
  apply Matrix.PosDef.mul_conjTranspose_self
  rw [Matrix.vecMul_injective_iff_isUnit, Matrix.isUnit_iff_isUnit_det,
    Matrix.det_of_isLowerTriangular]
  · rw [isUnit_iff_ne_zero, Finset.prod_ne_zero_iff]
    intro i _
    simp only [T, Matrix.of_apply, le_refl, if_true]
    exact (h.pos i i.2).ne
  · intro i j hij
    have : (i : Nat) < j := hij
    simp only [T, Matrix.of_apply]
    rw [if_neg (by omega)]

theorem posRe_of_pos {x : ℝ} (h : 0 < x) : PosRe (x : 𝕜) :=
  ⟨by simp, by simpa using h⟩

open scoped ComplexOrder in
/-- Every Hermitian positive definite matrix has a Cholesky factor. -/
theorem exists_chol {n : Nat} {A : Nat → Nat → 𝕜} (h : (hermM n A).PosDef) : ∃ L, Chol n A L := by
  classical
  set S := hermM n A with hS
  let Li := LDL.lowerInv h
  let Lo := LDL.lower h
  have htri : Li.BlockTriangular OrderDual.toDual := fun i j hij => LDL.lowerInv_triangular h hij
  have hLo : Lo.BlockTriangular OrderDual.toDual := by
    have := LDL.invertibleLowerInv h
    exact Matrix.blockTriangular_inv_of_blockTriangular htri
  have hdet : ∀ i, Lo i i ≠ 0 := by
    have := LDL.invertibleLowerInv h
    have hu : IsUnit Lo := Matrix.isUnit_nonsing_inv_iff.mpr (isUnit_of_invertible Li)
    rw [Matrix.isUnit_iff_isUnit_det, Matrix.det_of_isLowerTriangular _ hLo, isUnit_iff_ne_zero,
      Finset.prod_ne_zero_iff] at hu
    exact fun i => hu i (Finset.mem_univ i)
  have hdpos : ∀ i, 0 < LDL.diagEntries h i := by
    rw [← Matrix.posDef_diagonal_iff]
    show (LDL.diag h).PosDef
    rw [LDL.diag_eq_lowerInv_conj]
    apply Matrix.PosDef.mul_mul_conjTranspose_same h
    have := LDL.invertibleLowerInv h
    rw [Matrix.vecMul_injective_iff_isUnit]
    exact isUnit_of_invertible Li
  have hmul : Lo * LDL.diag h * Lo.conjTranspose = S := LDL.lower_conj_diag h
  let d : Fin n → ℝ := fun i => RCLike.re (LDL.diagEntries h i)
  have hd1 : ∀ i, 0 < d i := fun i => (RCLike.pos_iff.mp (hdpos i)).1
  have hd2 : ∀ i, LDL.diagEntries h i = ((d i : ℝ) : 𝕜) := by
    intro i
    have h2 := (RCLike.pos_iff.mp (hdpos i)).2
    apply RCLike.ext <;> simp [d, h2]
  let sc : Fin n → 𝕜 := fun i => ((‖Lo i i‖ : ℝ) : 𝕜) / Lo i i * ((Real.sqrt (d i) : ℝ) : 𝕜)
  have hsc : ∀ i, sc i * star (sc i) = LDL.diagEntries h i := by
    intro i
    rw [hd2 i]
    have e : sc i * star (sc i) = ((‖sc i‖ ^ 2 : ℝ) : 𝕜) := by
      rw [RCLike.star_def, RCLike.mul_conj]; simp
    rw [e]
    have : ‖sc i‖ = Real.sqrt (d i) := by
      have hne : ‖Lo i i‖ ≠ 0 := norm_ne_zero_iff.mpr (hdet i)
      simp only [sc, norm_mul, norm_div, RCLike.norm_ofReal, abs_norm, div_self hne, one_mul]
      exact abs_of_nonneg (Real.sqrt_nonneg _)
    rw [this, Real.sq_sqrt (hd1 i).le]
  refine ⟨fun r c => if hh : r < n ∧ c < n then Lo ⟨r, hh.1⟩ ⟨c, hh.2⟩ * sc ⟨c, hh.2⟩ else 0, ?_, ?_⟩
  · intro i hi
    rw [dif_pos ⟨hi, hi⟩]
    have : Lo ⟨i, hi⟩ ⟨i, hi⟩ * sc ⟨i, hi⟩ =
        ((‖Lo ⟨i, hi⟩ ⟨i, hi⟩‖ * Real.sqrt (d ⟨i, hi⟩) : ℝ) : 𝕜) := by
      simp only [sc]
      have := hdet ⟨i, hi⟩
      push_cast
      field_simp
    rw [this]
    exact posRe_of_pos (mul_pos (norm_pos_iff.mpr (hdet _)) (Real.sqrt_pos.mpr (hd1 _)))
  · intro r c hc hr
    have hcn : c < n := by omega
    have e : S ⟨r, hr⟩ ⟨c, hcn⟩ = hd A r c := by
      simp only [hS, hermM, Matrix.of_apply]
      rw [if_pos hc]
    rw [← e, ← hmul, Matrix.mul_apply]
    have e2 : ∀ l : Fin n, (Lo * LDL.diag h) ⟨r, hr⟩ l * Lo.conjTranspose l ⟨c, hcn⟩ =
        (fun l : Nat => if hl : l < n then Lo ⟨r, hr⟩ ⟨l, hl⟩ * sc ⟨l, hl⟩ *
          star (Lo ⟨c, hcn⟩ ⟨l, hl⟩ * sc ⟨l, hl⟩) else 0) l := by
      intro l
      dsimp only
      rw [dif_pos l.2, LDL.diag, Matrix.mul_diagonal, Matrix.conjTranspose_apply, ← hsc l]
      have hx : sc ⟨(l : Nat), l.2⟩ = sc l := rfl
      rw [hx]
      generalize sc l = x
      show _ = Lo ⟨r, hr⟩ l * x * star (Lo ⟨c, hcn⟩ l * x)
      rw [star_mul']
      ring
    rw [Finset.sum_congr rfl fun l _ => e2 l, Finset.sum_fin_eq_sum_range]
    refine Finset.sum_subset_zero_on_sdiff ?_ ?_ ?_
    · intro l hl; rw [mem_range] at *; omega
    · intro l hl
      rw [mem_sdiff, mem_range, mem_range] at hl
      rw [dif_pos hl.1]
      refine (dif_pos hl.1).trans ?_
      have : Lo ⟨c, hcn⟩ ⟨l, hl.1⟩ = 0 := hLo (show (⟨c, hcn⟩ : Fin n) < ⟨l, hl.1⟩ from by
        show c < l; omega)
      rw [this]; simp
    · intro l hl
      rw [mem_range] at hl
      have hln : l < n := by omega
      rw [dif_pos ⟨hr, hln⟩, dif_pos ⟨hcn, hln⟩, dif_pos hln]
      symm
      exact (dif_pos hln).trans rfl

open scoped ComplexOrder in
theorem posDef_iff_chol {n : Nat} {A : Nat → Nat → 𝕜} :
    (hermM n A).PosDef ↔ ∃ L, Chol n A L :=
  ⟨exists_chol, fun ⟨_, h⟩ => h.posDef⟩

/-! ### The right-looking algorithm -/

theorem hd_diag (A : Nat → Nat → 𝕜) (r : Nat) : hd A r r = reP (A r r) := by simp [hd]
theorem hd_off (A : Nat → Nat → 𝕜) {r c : Nat} (h : r ≠ c) : hd A r c = A r c := by simp [hd, h]

theorem hd_sa (A : Nat → Nat → 𝕜) (r : Nat) : star (hd A r r) = hd A r r := by
  rw [hd_diag]; exact reP_isRe.sa _

theorem hd_of_sa {A : Nat → Nat → 𝕜} {r c : Nat} (h : r = c → star (A r c) = A r c) :
    hd A r c = A r c := by
  unfold hd
  split
  · exact reP_isRe.fix _ (h ‹_›)
  · rfl

theorem hd_congr {A B : Nat → Nat → 𝕜} {r c : Nat} (h : A r c = B r c) : hd A r c = hd B r c := by
  unfold hd; rw [h]

theorem sum_self_sa {ι : Type*} (s : Finset ι) (f : ι → 𝕜) :
    star (∑ l ∈ s, f l * star (f l)) = ∑ l ∈ s, f l * star (f l) := by
  rw [star_sum]
  refine sum_congr rfl fun l _ => ?_
  rw [star_mul', star_star, mul_comm]

/-- State after the first `q` columns: they satisfy the equations of the factor of `A`,
and the rest holds the Schur complement. -/
structure CholInv (N q : Nat) (A X : Nat → Nat → 𝕜) : Prop where
  done : ∀ r c, c ≤ r → r < N → c < q → ∑ l ∈ range (c + 1), X r l * star (X c l) = hd A r c
  pos : ∀ c, c < N → c < q → PosRe (X c c)
  rest : ∀ r c, c ≤ r → r < N → q ≤ c → hd X r c = hd A r c - ∑ l ∈ range q, X r l * star (X c l)

theorem CholInv.init (N : Nat) (A : Nat → Nat → 𝕜) : CholInv N 0 A A :=
  ⟨by omega, by omega, by simp⟩

theorem CholInv.chol {N q : Nat} {A X : Nat → Nat → 𝕜} (h : CholInv N q A X) (hq : N ≤ q) :
    Chol N A X :=
  ⟨fun i hi => h.pos i hi (by omega), fun r c hc hr => h.done r c hc hr (by omega)⟩

/-- One block step. -/
theorem CholInv.step {N q b : Nat} {A X X' : Nat → Nat → 𝕜} (h : CholInv N q A X)
    (hkeep : ∀ r c, c ≤ r → r < N → c < q → X' r c = X r c)
    (hpos : ∀ j, j < b → q + j < N → PosRe (X' (q + j) (q + j)))
    (hcol : ∀ r j, j < b → q + j ≤ r → r < N →
      ∑ l ∈ range (j + 1), X' r (q + l) * star (X' (q + j) (q + l)) = hd X r (q + j))
    (hrest : ∀ r c, c ≤ r → r < N → q + b ≤ c →
      X' r c = hd X r c - ∑ l ∈ range b, X' r (q + l) * star (X' c (q + l))) :
    CholInv N (q + b) A X' where
  pos := by
    intro c hc hcq
    by_cases hlt : c < q
    · rw [hkeep c c (le_refl _) hc hlt]; exact h.pos c hc hlt
    · obtain ⟨j, rfl⟩ := Nat.exists_eq_add_of_le (Nat.le_of_not_lt hlt)
      exact hpos j (by omega) hc
  done := by
    intro r c hcr hr hcq
    by_cases hlt : c < q
    · rw [← h.done r c hcr hr hlt]
      refine sum_congr rfl fun l hl => ?_
      rw [mem_range] at hl
      rw [hkeep r l (by omega) hr (by omega), hkeep c l (by omega) (by omega) (by omega)]
    · obtain ⟨j, rfl⟩ := Nat.exists_eq_add_of_le (Nat.le_of_not_lt hlt)
      rw [show q + j + 1 = q + (j + 1) by omega, sum_range_add, hcol r j (by omega) hcr hr,
        h.rest r (q + j) hcr hr (by omega)]
      have : ∑ l ∈ range q, X' r l * star (X' (q + j) l) = ∑ l ∈ range q, X r l * star (X (q + j) l) := by
        refine sum_congr rfl fun l hl => ?_
        rw [mem_range] at hl
        rw [hkeep r l (by omega) hr (by omega), hkeep (q + j) l (by omega) (by omega) (by omega)]
      rw [this]; ring
  rest := by
    intro r c hcr hr hcq
    have h1 : hd X' r c = X' r c := by
      apply hd_of_sa
      rintro rfl
      rw [hrest r r (le_refl _) hr hcq, star_sub, hd_sa, sum_self_sa]
    rw [h1, hrest r c hcr hr hcq, h.rest r c hcr hr (by omega), sum_range_add]
    have : ∑ l ∈ range q, X' r l * star (X' c l) = ∑ l ∈ range q, X r l * star (X c l) := by
      refine sum_congr rfl fun l hl => ?_
      rw [mem_range] at hl
      rw [hkeep r l (by omega) hr (by omega), hkeep c l (by omega) (by omega) (by omega)]
    rw [this]; ring

/-- Leading principal submatrices that contain the finished columns have a factor iff the
corresponding part of the Schur complement has. -/
theorem CholInv.glue {N q n : Nat} {A X : Nat → Nat → 𝕜} (h : CholInv N q A X) (hn : q + n ≤ N) :
    (∃ L, Chol n (fun i j => X (q + i) (q + j)) L) ↔ ∃ L, Chol (q + n) A L := by
  have hhd : ∀ i j, hd (fun i j => X (q + i) (q + j)) i j = hd X (q + i) (q + j) := by
    intro i j; unfold hd; simp
  constructor
  · rintro ⟨L, hL⟩
    let F : Nat → Nat → 𝕜 := fun r c => if c < q then X r c else L (r - q) (c - q)
    have f1 : ∀ r c, c < q → F r c = X r c := fun r c hc => by simp [F, hc]
    have f2 : ∀ i j, F (q + i) (q + j) = L i j := fun i j => by simp [F]
    refine ⟨F, ?_, ?_⟩
    · intro i hi
      by_cases hlt : i < q
      · rw [f1 i i hlt]; exact h.pos i (by omega) hlt
      · obtain ⟨j, rfl⟩ := Nat.exists_eq_add_of_le (Nat.le_of_not_lt hlt)
        rw [f2]; exact hL.pos j (by omega)
    · intro r c hc hr
      by_cases hlt : c < q
      · rw [← h.done r c hc (by omega) hlt]
        refine sum_congr rfl fun l hl => ?_
        rw [mem_range] at hl
        rw [f1 r l (by omega), f1 c l (by omega)]
      · obtain ⟨j, rfl⟩ := Nat.exists_eq_add_of_le (Nat.le_of_not_lt hlt)
        obtain ⟨i, rfl⟩ := Nat.exists_eq_add_of_le (show q ≤ r by omega)
        rw [show q + j + 1 = q + (j + 1) by omega, sum_range_add]
        simp only [f2]
        rw [hL.eq i j (by omega) (by omega), hhd, h.rest _ _ hc (by omega) (by omega)]
        have : ∑ l ∈ range q, F (q + i) l * star (F (q + j) l) =
            ∑ l ∈ range q, X (q + i) l * star (X (q + j) l) := by
          refine sum_congr rfl fun l hl => ?_
          rw [mem_range] at hl
          rw [f1 _ l hl, f1 _ l hl]
        rw [this]; ring
  · rintro ⟨L, hL⟩
    have hu := chol_unique (N := q + n) (K := q) (G := fun r c => hd A r c) (L := L) (L' := X)
      (fun c _ hc => hL.pos c hc) (fun c hc hcn => h.pos c (by omega) hc)
      (fun r c hc hr _ => hL.eq r c hc hr) (fun r c hc hr hcq => h.done r c hc (by omega) hcq)
    refine ⟨fun i j => L (q + i) (q + j), ?_, ?_⟩
    · intro i hi; exact hL.pos (q + i) (by omega)
    · intro i j hji hi
      rw [hhd, h.rest _ _ (by omega) (by omega) (by omega), ← hL.eq (q + i) (q + j) (by omega) (by omega),
        show q + j + 1 = q + (j + 1) by omega,
        sum_range_add (fun l => L (q + i) l * star (L (q + j) l)) q (j + 1)]
      have : ∑ l ∈ range q, L (q + i) l * star (L (q + j) l) =
          ∑ l ∈ range q, X (q + i) l * star (X (q + j) l) := by
        refine sum_congr rfl fun l hl => ?_
        rw [mem_range] at hl
        rw [hu l hl _ (by omega) (by omega), hu l hl _ (by omega) (by omega)]
      rw [this]; ring

/-! ### The kernel -/

/-- The lower triangle described by an array with the selected triangle: itself, or the
conjugate transpose. -/
noncomputable def lowE (u : Uplo) (A : Nat → Nat → 𝕜) (r c : Nat) : 𝕜 :=
  if u = .lower then A r c else star (A c r)

/-- `LAPACKE_zpotrf_work` on an `n × n` tile (core_blas/core_zpotrf.c:55-63), by its
LAPACK specification in exact arithmetic: only the selected triangle is used; `info = 0`
and the triangle of the Cholesky factor, or `info = i > 0` and the leading minor of order
`i` is the first that is not positive definite, in which case the contents of the triangle
are left open. -/
structure IsPotrf (pk : Uplo → Nat → Tl 𝕜 → Tl 𝕜) (info : Uplo → Nat → Tl 𝕜 → Nat) : Prop where
  loc : ∀ u n T T', (∀ i j, tri u n i j → T i j = T' i j) → info u n T = info u n T' ∧
    ∀ i j, tri u n i j → pk u n T i j = pk u n T' i j
  ok : ∀ u n T, info u n T = 0 → Chol n (lowE u T) (lowE u (pk u n T))
  bad : ∀ u n T i, info u n T = i + 1 → i < n ∧ (∃ L, Chol i (lowE u T) L) ∧
    ¬ ∃ L, Chol (i + 1) (lowE u T) L

/-- There is such a kernel. -/
theorem exists_isPotrf : ∃ pk info, IsPotrf (𝕜 := 𝕜) pk info := by
  classical
  have hc : ∀ (u : Uplo) (n : Nat) (T : Tl 𝕜), ∃ p : Tl 𝕜 × Nat,
      (p.2 = 0 → Chol n (lowE u T) (lowE u p.1)) ∧
      (∀ i, p.2 = i + 1 → i < n ∧ (∃ L, Chol i (lowE u T) L) ∧ ¬ ∃ L, Chol (i + 1) (lowE u T) L) := by
    intro u n T
    by_cases h : ∃ L, Chol n (lowE u T) L
    · obtain ⟨L, hL⟩ := h
      refine ⟨(lowE u L, 0), fun _ => ?_, by omega⟩
      refine hL.congr (fun _ _ _ _ => rfl) ?_
      intro r c _ _
      unfold lowE; split <;> simp
    · have h2 : ∃ i, ¬ ∃ L, Chol i (lowE u T) L := ⟨n, h⟩
      let i := Nat.find h2
      have hi := Nat.find_spec h2
      have hin : i ≤ n := Nat.find_min' h2 h
      have hi0 : i ≠ 0 := by
        intro h0
        have h0' : Nat.find h2 = 0 := h0
        rw [h0'] at hi
        exact hi ⟨fun _ _ => 0, by constructor <;> omega⟩
      obtain ⟨k, hk⟩ := Nat.exists_eq_succ_of_ne_zero hi0
      refine ⟨(T, i), fun h => absurd h hi0, ?_⟩
      intro k' hk'
      have : k' = k := by simp at hk'; omega
      subst this
      refine ⟨by omega, ?_, ?_⟩
      · exact not_not.mp (Nat.find_min h2 (show k' < Nat.find h2 by
          have : Nat.find h2 = k' + 1 := hk
          omega))
      · have h3 : Nat.find h2 = k' + 1 := hk
        rw [h3] at hi; exact hi
  choose p h1 h2 using hc
  let cut : Uplo → Nat → Tl 𝕜 → Tl 𝕜 := fun u n T i j => if tri u n i j then T i j else 0
  have hcut : ∀ u n T r c, c ≤ r → r < n → lowE u (cut u n T) r c = lowE u T r c := by
    intro u n T r c hc hr
    unfold lowE
    cases u
    · simp only [cut, reduceCtorEq, if_false]
      rw [if_pos]; exact ⟨by omega, hr, hc⟩
    · simp only [cut, if_true]
      rw [if_pos]; exact ⟨hr, by omega, hc⟩
  refine ⟨fun u n T => (p u n (cut u n T)).1, fun u n T => (p u n (cut u n T)).2, ?_, ?_, ?_⟩
  · intro u n T T' h
    have : cut u n T = cut u n T' := by
      funext i j
      simp only [cut]
      split
      · exact h i j ‹_›
      · rfl
    rw [this]
    exact ⟨rfl, fun _ _ _ => rfl⟩
  · intro u n T h
    exact (h1 u n _ h).congr (hcut u n T) (fun _ _ _ _ => rfl)
  · intro u n T i h
    obtain ⟨a, ⟨L, b⟩, c⟩ := h2 u n _ i h
    refine ⟨a, ⟨L, b.congr (fun r c hc hr => hcut u n T r c hc (by omega)) (fun _ _ _ _ => rfl)⟩, ?_⟩
    rintro ⟨L, hL⟩
    exact c ⟨L, hL.congr (fun r c hc hr => (hcut u n T r c hc (by omega)).symm) (fun _ _ _ _ => rfl)⟩

end Verif.Tile

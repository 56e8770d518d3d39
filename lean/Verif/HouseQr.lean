/-
The blocked column algorithm of the QR tile kernels: core_blas/core_zgeqrt.c, core_blas/core_ztsqrt.c,
core_blas/core_zttqrt.c.
-/
import Verif.House
import Verif.QrApply

namespace Verif.Qr

open Verif.Layout Verif.Tile Finset Matrix

universe v

section
variable {𝕜 : Type v} [RCLike 𝕜]

/-- Rows other than row `j` that reflector `j` acts on. -/
abbrev Sup := Nat → Nat → Bool

/-- Reflector vectors stored in `X`: one in row `j`, column `j` of `X` on the support. -/
def hvec (sup : Sup) (X : Tl 𝕜) (r j : Nat) : 𝕜 := if r = j then 1 else if sup j r then X r j else 0

/-- Squared norm of the part of column `j` that is annihilated. -/
noncomputable def xn2 (d : Nat) (sup : Sup) (j : Nat) (X : Tl 𝕜) : ℝ :=
  ∑ r ∈ range d, if sup j r then ‖X r j‖ ^ 2 else 0

/-- The tiles and `T` during a kernel. -/
structure HSt (𝕜 : Type v) where
  X : Tl 𝕜
  T : Tl 𝕜

/-- `zlarfg` on column `j`. -/
noncomputable def larfgCol (d : Nat) (sup : Sup) (j : Nat) (X : Tl 𝕜) : Tl 𝕜 := fun r c =>
  if c = j then
    (if r = j then lbet (X j j) (xn2 d sup j X) else if sup j r then X r j * lscal (X j j) (xn2 d sup j X) else X r j)
  else X r c

/-- One column: reflector `j` of the block that starts at column `ii`, its application to the columns before `hi`, and
column `j` of `T` (core_blas/core_ztsqrt.c:148-197, core_blas/core_zttqrt.c:149-216; for core_blas/core_zgeqrt.c:141-152
the same is done by LAPACK's `zgeqr2` and `zlarft`). -/
noncomputable def hcol (d : Nat) (sup : Sup) (ii hi j : Nat) (s : HSt 𝕜) : HSt 𝕜 :=
  let τ := ltau (s.X j j) (xn2 d sup j s.X)
  let X1 := larfgCol d sup j s.X
  { X := fun r c => if j < c ∧ c < hi ∧ r < d then
        X1 r c - hvec sup X1 r j * (star τ * ∑ l : Fin d, star (hvec sup X1 l j) * X1 l c) else X1 r c
    T := fun l c => if c = j ∧ l ≤ j - ii then
        (if l = j - ii then τ else ∑ p ∈ range (j - ii), if l ≤ p then
          s.T l (ii + p) * (-τ * ∑ q : Fin d, star (hvec sup X1 q (ii + p)) * hvec sup X1 q j) else 0)
      else s.T l c }

/-- The columns of one block. -/
noncomputable def hcols (d : Nat) (sup : Sup) (ii hi i : Nat) (s : HSt 𝕜) : HSt 𝕜 :=
  (List.range i).foldl (fun s i => hcol d sup ii hi (ii + i) s) s

/-- One block of `ib` columns and the update of the columns behind it (core_blas/core_zgeqrt.c:138-166,
core_blas/core_ztsqrt.c:146-207, core_blas/core_zttqrt.c:147-233). -/
noncomputable def hblk (d n k ib : Nat) (sup : Sup) (b : Nat) (s : HSt 𝕜) : HSt 𝕜 :=
  let s1 := hcols d sup (b * ib) (b * ib + tdim k ib b) (tdim k ib b) s
  { X := fun r c => if b * ib + tdim k ib b ≤ c ∧ c < n then
        lmul (wyBlk d k ib (hvec sup s1.X) s1.T b)ᴴ s1.X r c else s1.X r c
    T := s1.T }

/-- The kernel: `k` reflectors for `n` columns of `d` rows. -/
noncomputable def hqr (d n k ib : Nat) (sup : Sup) (s : HSt 𝕜) : HSt 𝕜 :=
  (List.range (ceilDiv k ib)).foldl (fun s b => hblk d n k ib sup b s) s

/-- Shape of the support: below row `j`, and growing apart from the rows above the diagonal. -/
structure SupOK (sup : Sup) : Prop where
  below : ∀ j r, sup j r → j < r
  mono : ∀ j c r, j < c → sup j r → r ≤ c ∨ sup c r

/-- The scalar factor of reflector `j`. -/
def htau (ib : Nat) (T : Tl 𝕜) (j : Nat) : 𝕜 := T (j % ib) j

/-- Product of the first `J` reflectors. -/
def hQ (d ib : Nat) (sup : Sup) (s : HSt 𝕜) (J : Nat) : Matrix (Fin d) (Fin d) 𝕜 := hprod d (hvec sup s.X) (htau ib s.T) J

/-- Invariant: `J` reflectors are done and applied to the columns before `hi`, `J0` reflectors are applied to the
others. -/
structure HInv (d n ib : Nat) (sup : Sup) (X0 : Tl 𝕜) (J hi J0 : Nat) (s : HSt 𝕜) : Prop where
  unit : ∀ j, j < J → refl d (fun r => hvec sup s.X r j) (htau ib s.T j) ∈ unitaryGroup (Fin d) 𝕜
  trec : ∀ j, j < J → TRec d (j / ib * ib) (hvec sup s.X) s.T (j % ib)
  eq : ∀ c, c < n → (hQ d ib sup s (if c < hi then J else J0)).mulVec
    (fun r => if c < J then triu s.X r c else s.X r c) = fun r : Fin d => X0 r c
  zero : ∀ c, J ≤ c → c < n → ∀ r, r < d → ¬ (r ≤ c ∨ sup c r) → s.X r c = 0

theorem xn2_nonneg (d : Nat) (sup : Sup) (j : Nat) (X : Tl 𝕜) : 0 ≤ xn2 d sup j X := by
  unfold xn2
  exact sum_nonneg fun r _ => by split_ifs <;> positivity

theorem hvec_congr {sup : Sup} {X X' : Tl 𝕜} {j : Nat} (h : ∀ r, X r j = X' r j) (r : Nat) :
    hvec sup X r j = hvec sup X' r j := by
  unfold hvec; rw [h]

variable {d n ib : Nat} {sup : Sup}

/-- Columns up to `j` after the step. -/
theorem hcol_X_le {ii hi j : Nat} {s : HSt 𝕜} {r c : Nat} (h : c ≤ j) :
    (hcol d sup ii hi j s).X r c = larfgCol d sup j s.X r c := by
  show (if _ then _ else _) = _
  rw [if_neg (by omega)]

theorem hcol_X_lt {ii hi j : Nat} {s : HSt 𝕜} {r c : Nat} (h : c < j) : (hcol d sup ii hi j s).X r c = s.X r c := by
  rw [hcol_X_le (by omega)]
  unfold larfgCol; rw [if_neg (by omega)]

theorem hcol_X_ge {ii hi j : Nat} {s : HSt 𝕜} {r c : Nat} (h : hi ≤ c) (hj : j < hi) :
    (hcol d sup ii hi j s).X r c = s.X r c := by
  show (if _ then _ else _) = _
  rw [if_neg (by omega)]
  unfold larfgCol; rw [if_neg (by omega)]

theorem hcol_T_ne {ii hi j : Nat} {s : HSt 𝕜} {l c : Nat} (h : c ≠ j) : (hcol d sup ii hi j s).T l c = s.T l c := by
  show (if _ then _ else _) = _
  rw [if_neg (by omega)]

theorem hcol_T_diag {ii hi j : Nat} {s : HSt 𝕜} :
    (hcol d sup ii hi j s).T (j - ii) j = ltau (s.X j j) (xn2 d sup j s.X) := by
  show (if _ then _ else _) = _
  rw [if_pos ⟨rfl, le_rfl⟩, if_pos rfl]

/-- Values of the new reflector. -/
theorem hvec_new (hs : SupOK sup) {ii hi j : Nat} {s : HSt 𝕜} (r : Nat) :
    hvec sup (hcol d sup ii hi j s).X r j =
      if r = j then 1 else if sup j r then s.X r j * lscal (s.X j j) (xn2 d sup j s.X) else 0 := by
  unfold hvec
  rw [hcol_X_le le_rfl]
  unfold larfgCol
  rw [if_pos rfl]
  split_ifs <;> rfl

/-- Squared norm of the new reflector. -/
theorem hvec_norm (hs : SupOK sup) {ii hi j : Nat} (hj : j < d) {s : HSt 𝕜} :
    (∑ l : Fin d, star (hvec sup (hcol d sup ii hi j s).X l j) * hvec sup (hcol d sup ii hi j s).X l j) =
      1 + lscal (s.X j j) (xn2 d sup j s.X) * star (lscal (s.X j j) (xn2 d sup j s.X)) * (xn2 d sup j s.X : 𝕜) := by
  generalize hκ : lscal (s.X j j) (xn2 d sup j s.X) = κ
  have e : ∀ l : Fin d, star (hvec sup (hcol d sup ii hi j s).X l j) * hvec sup (hcol d sup ii hi j s).X l j =
      (if (l : Nat) = j then 1 else 0) + κ * star κ * ((if sup j l then ‖s.X l j‖ ^ 2 else 0 : ℝ) : 𝕜) := by
    intro l
    rw [hvec_new hs, hκ]
    by_cases h1 : (l : Nat) = j
    · have : ¬ sup j j := fun h => absurd (hs.below _ _ h) (by omega)
      simp [h1, this]
    · simp only [if_neg h1]
      by_cases h2 : sup j l
      · simp only [if_pos h2, star_mul, RCLike.ofReal_pow, norm_sq_star]
        ring
      · simp [h2]
  rw [sum_congr rfl fun l _ => e l, sum_add_distrib, ← Finset.mul_sum]
  congr 1
  · rw [Fin.sum_univ_eq_sum_range (fun l => if l = j then (1 : 𝕜) else 0)]
    simp [hj]
  · congr 1
    unfold xn2
    rw [Fin.sum_univ_eq_sum_range (fun l => ((if sup j l then ‖s.X l j‖ ^ 2 else 0 : ℝ) : 𝕜)), RCLike.ofReal_sum]

/-- Product of the new reflector with the old column. -/
theorem hvec_dot (hs : SupOK sup) {ii hi j : Nat} (hj : j < d) {s : HSt 𝕜} :
    (∑ l : Fin d, star (hvec sup (hcol d sup ii hi j s).X l j) * s.X l j) =
      s.X j j + star (lscal (s.X j j) (xn2 d sup j s.X)) * (xn2 d sup j s.X : 𝕜) := by
  generalize hκ : lscal (s.X j j) (xn2 d sup j s.X) = κ
  have e : ∀ l : Fin d, star (hvec sup (hcol d sup ii hi j s).X l j) * s.X l j =
      (if (l : Nat) = j then s.X j j else 0) + star κ * ((if sup j l then ‖s.X l j‖ ^ 2 else 0 : ℝ) : 𝕜) := by
    intro l
    rw [hvec_new hs, hκ]
    by_cases h1 : (l : Nat) = j
    · have : ¬ sup j j := fun h => absurd (hs.below _ _ h) (by omega)
      simp [h1, this]
    · simp only [if_neg h1]
      by_cases h2 : sup j l
      · simp only [if_pos h2, star_mul, RCLike.ofReal_pow, norm_sq_star]
        ring
      · simp [h2]
  rw [sum_congr rfl fun l _ => e l, sum_add_distrib, ← Finset.mul_sum]
  congr 1
  · rw [Fin.sum_univ_eq_sum_range (fun l => if l = j then s.X j j else 0)]
    simp [hj]
  · congr 1
    unfold xn2
    rw [Fin.sum_univ_eq_sum_range (fun l => ((if sup j l then ‖s.X l j‖ ^ 2 else 0 : ℝ) : 𝕜)), RCLike.ofReal_sum]

theorem xn2_zero {j : Nat} {X : Tl 𝕜} (h : xn2 d sup j X = 0) {r : Nat} (hr : r < d) (hsup : sup j r) : X r j = 0 := by
  unfold xn2 at h
  have := (sum_eq_zero_iff_of_nonneg (fun r _ => by split_ifs <;> positivity)).mp h r (mem_range.mpr hr)
  rw [if_pos hsup] at this
  simpa using this

/-- The new reflector is unitary. -/
theorem hcol_unit (hs : SupOK sup) {ii hi j : Nat} (hj : j < d) {s : HSt 𝕜} :
    refl d (fun r => hvec sup (hcol d sup ii hi j s).X r j) ((hcol d sup ii hi j s).T (j - ii) j) ∈ unitaryGroup (Fin d) 𝕜 := by
  refine refl_unit ?_
  rw [hcol_T_diag, hvec_norm hs hj]
  exact larfg_unit _ (xn2_nonneg ..)

/-- Its adjoint applied to the old column gives the new column. -/
theorem hcol_ann (hs : SupOK sup) {ii hi j : Nat} (hj : j < d) {s : HSt 𝕜}
    (hz : ∀ r, r < d → ¬ (r ≤ j ∨ sup j r) → s.X r j = 0) :
    (refl d (fun r => hvec sup (hcol d sup ii hi j s).X r j) ((hcol d sup ii hi j s).T (j - ii) j))ᴴ.mulVec
      (fun r => s.X r j) = fun r : Fin d => triu (hcol d sup ii hi j s).X r j := by
  rw [refl_star]
  ext r
  rw [refl_mulVec, hcol_T_diag]
  have e := hvec_dot (ii := ii) (hi := hi) hs hj (s := s)
  rw [e, (larfg_ann (s.X j j) (xn2_nonneg d sup j s.X)).1, hvec_new hs]
  have hnew : ∀ r, (hcol d sup ii hi j s).X r j = larfgCol d sup j s.X r j := fun r => hcol_X_le le_rfl
  unfold triu
  rw [hnew]
  unfold larfgCol
  rw [if_pos rfl]
  by_cases h1 : (r : Nat) = j
  · rw [if_pos h1, if_pos (show (r : Nat) ≤ j by omega), if_pos h1, h1]
    ring
  · rw [if_neg h1, if_neg h1]
    by_cases h2 : sup j r
    · have h3 := hs.below _ _ h2
      rw [if_pos h2, if_neg (show ¬ (r : Nat) ≤ j by omega)]
      by_cases hx : xn2 d sup j s.X = 0
      · rw [xn2_zero hx r.2 h2]; ring
      · have := (larfg_ann (s.X j j) (xn2_nonneg d sup j s.X)).2 hx
        linear_combination (-(s.X r j)) * this
    · rw [if_neg h2]
      by_cases h3 : (r : Nat) ≤ j
      · rw [if_pos h3, if_neg h2]; ring
      · rw [if_neg h3, hz r r.2 (by tauto)]; ring

/-- Columns behind column `j` in the block. -/
theorem hcol_upd {ii hi j : Nat} {s : HSt 𝕜} {c : Nat} (h1 : j < c) (h2 : c < hi) :
    (fun r : Fin d => (hcol d sup ii hi j s).X r c) =
    (refl d (fun r => hvec sup (hcol d sup ii hi j s).X r j) ((hcol d sup ii hi j s).T (j - ii) j))ᴴ.mulVec
      (fun r => s.X r c) := by
  rw [refl_star]
  ext r
  rw [refl_mulVec, hcol_T_diag]
  have hv : ∀ r, hvec sup (hcol d sup ii hi j s).X r j = hvec sup (larfgCol d sup j s.X) r j :=
    hvec_congr fun r => hcol_X_le le_rfl
  have hX : ∀ r, larfgCol d sup j s.X r c = s.X r c := fun r => by unfold larfgCol; rw [if_neg (by omega)]
  simp only [hv]
  show (if _ then _ else _) = _
  rw [if_pos ⟨h1, h2, r.2⟩]
  simp only [hX]

theorem unit_cancel {Q : Matrix (Fin d) (Fin d) 𝕜} (h : Q ∈ unitaryGroup (Fin d) 𝕜) (x : Fin d → 𝕜) :
    Q.mulVec (Qᴴ.mulVec x) = x := by
  rw [Matrix.mulVec_mulVec, ← star_eq_conjTranspose, Matrix.mem_unitaryGroup_iff.mp h, Matrix.one_mulVec]

/-- One column keeps the invariant. -/
theorem hcol_inv (hs : SupOK sup) (hib : 0 < ib) {X0 : Tl 𝕜} {J hi J0 : Nat} (hd : J < d) (hhi : J < hi) (hJ0 : J0 ≤ J)
    {s : HSt 𝕜} (h : HInv d n ib sup X0 J hi J0 s) :
    HInv d n ib sup X0 (J + 1) hi J0 (hcol d sup (J / ib * ib) hi J s) := by
  have hii : J - J / ib * ib = J % ib := by have := divmod J ib; omega
  have hwlt : ∀ j, j < J → ∀ r, hvec sup (hcol d sup (J / ib * ib) hi J s).X r j = hvec sup s.X r j := fun j hj =>
    hvec_congr fun r => hcol_X_lt hj
  have htlt : ∀ j, j < J → htau ib (hcol d sup (J / ib * ib) hi J s).T j = htau ib s.T j := fun j hj =>
    hcol_T_ne (by omega)
  have hQ : ∀ a, a ≤ J → hQ d ib sup (hcol d sup (J / ib * ib) hi J s) a = hQ d ib sup s a := fun a ha =>
    hprod_congr fun l hl => ⟨fun r _ => hwlt l (by omega) r, htlt l (by omega)⟩
  have hτ : htau ib (hcol d sup (J / ib * ib) hi J s).T J = (hcol d sup (J / ib * ib) hi J s).T (J - J / ib * ib) J := by
    rw [hii]; rfl
  have hQ' : Qr.hQ d ib sup (hcol d sup (J / ib * ib) hi J s) (J + 1) = Qr.hQ d ib sup s J *
      refl d (fun r => hvec sup (hcol d sup (J / ib * ib) hi J s).X r J)
        ((hcol d sup (J / ib * ib) hi J s).T (J - J / ib * ib) J) := by
    rw [← hQ J le_rfl, ← hτ]
    exact hprod_succ
  have hu := hcol_unit (ii := J / ib * ib) (hi := hi) hs hd (s := s)
  refine ⟨?_, ?_, ?_, ?_⟩
  · intro j hj
    by_cases hjJ : j = J
    · subst hjJ
      rw [hτ]
      exact hu
    · have := h.unit j (by omega)
      rw [htlt j (by omega)]
      simpa only [hwlt j (by omega : j < J)] using this
  · intro j hj
    by_cases hjJ : j = J
    · subst hjJ
      intro l hl
      have e : j / ib * ib + j % ib = j := divmod j ib
      rw [e]
      show (if _ then _ else _) = _
      rw [if_pos ⟨rfl, by omega⟩, if_neg (by omega), hii]
      refine sum_congr rfl fun p hp => ?_
      have hp := mem_range.mp hp
      rw [hcol_T_ne (by omega)]
      split_ifs
      · have e1 : ∀ q, hvec sup (larfgCol d sup j s.X) q j = hvec sup (hcol d sup (j / ib * ib) hi j s).X q j :=
          fun q => (hvec_congr (fun r => hcol_X_le le_rfl) q).symm
        have e2 : ∀ q, hvec sup (larfgCol d sup j s.X) q (j / ib * ib + p) =
            hvec sup (hcol d sup (j / ib * ib) hi j s).X q (j / ib * ib + p) :=
          fun q => (hvec_congr (fun r => hcol_X_le (by omega)) q).symm
        simp only [e1, e2]
        rw [← hii, hcol_T_diag]
      · rfl
    · have hj' : j < J := by omega
      have := h.trec j hj'
      have e : j / ib * ib + j % ib = j := divmod j ib
      intro l hl
      have hlt : ∀ x, x ≤ j % ib → j / ib * ib + x < J := fun x hx => by omega
      rw [hcol_T_ne (by have := hlt _ le_rfl; omega), this l hl]
      refine sum_congr rfl fun p hp => ?_
      have hp := mem_range.mp hp
      rw [hcol_T_ne (by have := hlt p (by omega); omega), hcol_T_ne (by have := hlt _ le_rfl; omega)]
      simp only [hwlt _ (hlt p (by omega)), hwlt _ (hlt _ le_rfl)]
  · intro c hc
    have he := h.eq c hc
    by_cases hchi : c < hi
    · rw [if_pos hchi] at he ⊢
      rw [hQ', ← Matrix.mulVec_mulVec, ← he]
      congr 1
      by_cases h1 : c < J
      · -- finished columns
        ext r
        rw [refl_mulVec]
        have hz : (∑ l : Fin d, star (hvec sup (hcol d sup (J / ib * ib) hi J s).X l J) *
            (if c < J + 1 then triu (hcol d sup (J / ib * ib) hi J s).X l c else
              (hcol d sup (J / ib * ib) hi J s).X l c)) = 0 := by
          refine sum_eq_zero fun l _ => ?_
          rw [if_pos (show c < J + 1 by omega), hvec_new hs]
          unfold triu
          by_cases h2 : (l : Nat) ≤ c
          · have : ¬ sup J l := fun h => absurd (hs.below _ _ h) (by omega)
            rw [if_neg (by omega), if_neg this, star_zero, zero_mul]
          · rw [if_neg h2, mul_zero]
        rw [hz, if_pos (show c < J + 1 by omega), if_pos h1]
        unfold triu
        rw [hcol_X_lt h1]
        ring
      · by_cases h2 : c = J
        · subst h2
          have := hcol_ann (ii := c / ib * ib) (hi := hi) hs hd (s := s) (h.zero c le_rfl hc)
          simp only [if_pos (show c < c + 1 by omega), if_neg h1]
          rw [← this, unit_cancel hu]
        · simp only [if_neg (show ¬ c < J + 1 by omega), if_neg h1]
          rw [hcol_upd (by omega) hchi, unit_cancel hu]
    · rw [if_neg hchi] at he ⊢
      rw [hQ J0 hJ0, ← he]
      congr 1
      ext r
      rw [if_neg (show ¬ c < J + 1 by omega), if_neg (show ¬ c < J by omega), hcol_X_ge (by omega) hhi]
  · intro c hJc hc r hr hz
    by_cases hchi : c < hi
    · have h1 : ∀ r, larfgCol d sup J s.X r c = s.X r c := fun r => by unfold larfgCol; rw [if_neg (by omega)]
      show (if _ then _ else _) = _
      rw [if_pos ⟨by omega, hchi, hr⟩]
      have hv : hvec sup (larfgCol d sup J s.X) r J = 0 := by
        rw [← hvec_congr (fun r => hcol_X_le (ii := J / ib * ib) (hi := hi) le_rfl), hvec_new hs, if_neg (by omega), if_neg]
        intro hsup
        exact hz (hs.mono J c r (by omega) hsup)
      rw [hv, h1, h.zero c (by omega) hc r hr hz]
      ring
    · rw [hcol_X_ge (by omega) hhi]
      exact h.zero c (by omega) hc r hr hz

/-- The columns of a block keep the invariant. -/
theorem hcols_inv (hs : SupOK sup) (hib : 0 < ib) {X0 : Tl 𝕜} {b hi i : Nat} (hi' : i ≤ ib) (hd : b * ib + i ≤ d)
    (hhi : b * ib + i ≤ hi) {s : HSt 𝕜} (h : HInv d n ib sup X0 (b * ib) hi (b * ib) s) :
    HInv d n ib sup X0 (b * ib + i) hi (b * ib) (hcols d sup (b * ib) hi i s) := by
  induction i with
  | zero => exact h
  | succ i ih =>
    have := ih (by omega) (by omega) (by omega)
    have hdiv : (b * ib + i) / ib = b := div_of_tile (by omega)
    have h2 := hcol_inv hs hib (by omega) (by omega) (by omega) this
    rw [hdiv] at h2
    unfold hcols
    rw [List.range_succ, List.foldl_append]
    exact h2

/-- The block reflector is the product of the reflectors of the block. -/
theorem hblk_wy {X0 : Tl 𝕜} {k b hi : Nat} (hib : 0 < ib) {s : HSt 𝕜}
    (h : HInv d n ib sup X0 (b * ib + tdim k ib b) hi (b * ib) s) :
    wyBlk d k ib (hvec sup s.X) s.T b =
      hprod d (fun r l => hvec sup s.X r (b * ib + l)) (fun l => htau ib s.T (b * ib + l)) (tdim k ib b) := by
  have htd : tdim k ib b ≤ ib := by unfold tdim; omega
  rw [wyBlk_pre, wyPre_prod]
  · refine hprod_congr fun l hl => ⟨fun _ _ => rfl, ?_⟩
    unfold htau
    rw [mod_of_tile (by omega)]
  · intro l hl
    have := h.trec (b * ib + l) (by omega)
    rwa [div_of_tile (by omega), mod_of_tile (by omega)] at this

/-- One block keeps the invariant. -/
theorem hblk_inv (hs : SupOK sup) (hib : 0 < ib) {X0 : Tl 𝕜} {k b : Nat} (hkd : k ≤ d) (hbk : b * ib < k) {s : HSt 𝕜}
    (h : HInv d n ib sup X0 (b * ib) (b * ib) (b * ib) s) :
    HInv d n ib sup X0 (b * ib + tdim k ib b) (b * ib + tdim k ib b) (b * ib + tdim k ib b) (hblk d n k ib sup b s) := by
  have htd : tdim k ib b ≤ ib ∧ b * ib + tdim k ib b ≤ k := by unfold tdim; omega
  have h0 : HInv d n ib sup X0 (b * ib) (b * ib + tdim k ib b) (b * ib) s := by
    refine ⟨h.unit, h.trec, fun c hc => ?_, h.zero⟩
    have := h.eq c hc
    rwa [ite_self] at this ⊢
  have h1 := hcols_inv hs hib htd.1 (by omega) le_rfl h0
  have hwy := hblk_wy hib h1
  generalize hs1 : hcols d sup (b * ib) (b * ib + tdim k ib b) (tdim k ib b) s = s1 at h1 hwy
  have hX : ∀ r c, (hblk d n k ib sup b s).X r c = if b * ib + tdim k ib b ≤ c ∧ c < n then
      lmul (wyBlk d k ib (hvec sup s1.X) s1.T b)ᴴ s1.X r c else s1.X r c := fun r c => by
    unfold hblk; dsimp only; rw [hs1]
  have hT : (hblk d n k ib sup b s).T = s1.T := by unfold hblk; dsimp only; rw [hs1]
  have hXlt : ∀ r c, c < b * ib + tdim k ib b → (hblk d n k ib sup b s).X r c = s1.X r c := fun r c hc => by
    rw [hX, if_neg (by omega)]
  have hw : ∀ j, j < b * ib + tdim k ib b → ∀ r, hvec sup (hblk d n k ib sup b s).X r j = hvec sup s1.X r j := fun j hj =>
    hvec_congr fun r => hXlt r j hj
  have hQ : ∀ a, a ≤ b * ib + tdim k ib b → Qr.hQ d ib sup (hblk d n k ib sup b s) a = Qr.hQ d ib sup s1 a := fun a ha =>
    hprod_congr fun l hl => ⟨fun r _ => hw l (by omega) r, by rw [hT]⟩
  have hWu : wyBlk d k ib (hvec sup s1.X) s1.T b ∈ unitaryGroup (Fin d) 𝕜 := by
    rw [hwy]
    exact hprod_unit fun l hl => h1.unit (b * ib + l) (by omega)
  refine ⟨?_, ?_, ?_, ?_⟩
  · intro j hj
    have := h1.unit j hj
    rw [hT]
    simpa only [hw j hj] using this
  · intro j hj
    have := h1.trec j hj
    rw [hT]
    have e : j / ib * ib + j % ib = j := divmod j ib
    intro l hl
    rw [this l hl]
    refine sum_congr rfl fun p hp => ?_
    have hp := mem_range.mp hp
    simp only [hw _ (show j / ib * ib + p < _ by omega), hw _ (show j / ib * ib + j % ib < _ by omega)]
  · intro c hc
    have he := h1.eq c hc
    rw [ite_self, hQ _ le_rfl]
    by_cases hch : c < b * ib + tdim k ib b
    · rw [if_pos hch] at he
      rw [← he]
      congr 1
      ext r
      rw [if_pos hch, if_pos hch]
      unfold triu
      rw [hXlt _ _ hch]
    · rw [if_neg hch] at he
      rw [← he]
      have e : Qr.hQ d ib sup s1 (b * ib + tdim k ib b) = Qr.hQ d ib sup s1 (b * ib) *
          wyBlk d k ib (hvec sup s1.X) s1.T b := by rw [hwy]; exact hprod_add
      rw [e, ← Matrix.mulVec_mulVec]
      congr 1
      have e2 : (fun r : Fin d => if c < b * ib + tdim k ib b then triu (hblk d n k ib sup b s).X r c else
          (hblk d n k ib sup b s).X r c) = (wyBlk d k ib (hvec sup s1.X) s1.T b)ᴴ.mulVec fun r => s1.X r c := by
        ext r
        rw [if_neg hch, hX, if_pos ⟨by omega, hc⟩]
        unfold lmul
        rw [dif_pos r.2]
        rfl
      rw [e2, unit_cancel hWu]
      ext r
      rw [if_neg hch]
  · intro c hJc hc r hr hz
    rw [hX, if_pos ⟨hJc, hc⟩]
    have hz0 : ∀ j, j < b * ib + tdim k ib b → hvec sup s1.X r j = 0 := by
      intro j hj
      unfold hvec
      rw [if_neg (by omega), if_neg]
      intro hsup
      exact hz (hs.mono j c r (by omega) hsup)
    unfold lmul
    rw [dif_pos hr, wyBlk_pre]
    have hrow : ∀ l : Fin d, (wyPre d (b * ib) (hvec sup s1.X) s1.T (tdim k ib b))ᴴ ⟨r, hr⟩ l =
        (1 : Matrix (Fin d) (Fin d) 𝕜) ⟨r, hr⟩ l := by
      intro l
      unfold wyPre
      rw [Matrix.conjTranspose_sub, Matrix.conjTranspose_one, Matrix.sub_apply]
      have : (Matrix.of fun (r : Fin d) (r' : Fin d) => ∑ l' ∈ range (tdim k ib b),
          vt (b * ib) (hvec sup s1.X) s1.T l' r * star (hvec sup s1.X r' (b * ib + l')))ᴴ ⟨r, hr⟩ l = 0 := by
        rw [Matrix.conjTranspose_apply, Matrix.of_apply, star_eq_zero]
        refine sum_eq_zero fun l' hl' => ?_
        have := mem_range.mp hl'
        dsimp only
        rw [hz0 _ (by omega), star_zero, mul_zero]
      rw [this, sub_zero]
    rw [sum_congr rfl fun l _ => by rw [hrow l], Finset.sum_eq_single (⟨r, hr⟩ : Fin d)]
    · rw [Matrix.one_apply_eq, one_mul]
      exact h1.zero c hJc hc r hr hz
    · intro l _ hl
      rw [Matrix.one_apply_ne' hl, zero_mul]
    · intro h; exact absurd (mem_univ _) h

/-- The whole kernel. -/
theorem hqr_inv (hs : SupOK sup) (hib : 0 < ib) {k : Nat} (hkd : k ≤ d) (s : HSt 𝕜)
    (hz : ∀ c, c < n → ∀ r, r < d → ¬ (r ≤ c ∨ sup c r) → s.X r c = 0) :
    HInv d n ib sup s.X k k k (hqr d n k ib sup s) := by
  have h0 : HInv d n ib sup s.X 0 0 0 s := by
    refine ⟨fun j hj => absurd hj (by omega), fun j hj => absurd hj (by omega), fun c hc => ?_, fun c _ hc => hz c hc⟩
    rw [ite_self]
    show (hprod d (hvec sup s.X) (htau ib s.T) 0).mulVec _ = _
    rw [hprod_zero, Matrix.one_mulVec]
    ext r
    rw [if_neg (by omega)]
  have key : ∀ B, B ≤ ceilDiv k ib → HInv d n ib sup s.X (min k (B * ib)) (min k (B * ib)) (min k (B * ib))
      ((List.range B).foldl (fun s b => hblk d n k ib sup b s) s) := by
    intro B
    induction B with
    | zero => intro _; rw [Nat.zero_mul, Nat.min_zero]; exact h0
    | succ B ih =>
      intro hB
      have hlt : B * ib < k := (lt_ceilDiv hib).mp (by omega)
      have := ih (by omega)
      rw [Nat.min_eq_right (by omega)] at this
      have h2 := hblk_inv hs hib hkd hlt this
      rw [List.range_succ, List.foldl_append]
      have e : min k ((B + 1) * ib) = B * ib + tdim k ib B := by unfold tdim; rw [Nat.add_mul]; omega
      rw [e]
      exact h2
  have := key (ceilDiv k ib) le_rfl
  have hle : k ≤ ceilDiv k ib * ib := by
    by_contra hc
    have := (lt_ceilDiv (m := k) (k := ceilDiv k ib) hib).mpr (by omega)
    omega
  rw [Nat.min_eq_left hle] at this
  exact this

/-- The product of the block reflectors. -/
theorem wy_hQ {X0 : Tl 𝕜} {k : Nat} (hib : 0 < ib) {s : HSt 𝕜} (h : HInv d n ib sup X0 k k k s) :
    wy d k ib (hvec sup s.X) s.T = hQ d ib sup s k := by
  have key : ∀ B, B ≤ ceilDiv k ib → ((List.range B).map (wyBlk d k ib (hvec sup s.X) s.T)).prod =
      hQ d ib sup s (min k (B * ib)) := by
    intro B
    induction B with
    | zero => intro _; rw [Nat.zero_mul, Nat.min_zero]; rfl
    | succ B ih =>
      intro hB
      have hlt : B * ib < k := (lt_ceilDiv hib).mp (by omega)
      have e : min k ((B + 1) * ib) = B * ib + tdim k ib B := by unfold tdim; rw [Nat.add_mul]; omega
      have htd : tdim k ib B ≤ ib ∧ B * ib + tdim k ib B ≤ k := by unfold tdim; omega
      rw [List.range_succ, List.map_append, List.prod_append, ih (by omega), e, Nat.min_eq_right (by omega)]
      simp only [List.map_cons, List.map_nil, List.prod_cons, List.prod_nil, mul_one]
      have : wyBlk d k ib (hvec sup s.X) s.T B = hprod d (fun r l => hvec sup s.X r (B * ib + l))
          (fun l => htau ib s.T (B * ib + l)) (tdim k ib B) := by
        rw [wyBlk_pre, wyPre_prod]
        · refine hprod_congr fun l hl => ⟨fun _ _ => rfl, ?_⟩
          unfold htau
          rw [mod_of_tile (by omega)]
        · intro l hl
          have := h.trec (B * ib + l) (by omega)
          rwa [div_of_tile (by omega), mod_of_tile (by omega)] at this
      rw [this]
      exact hprod_add.symm
  have hle : k ≤ ceilDiv k ib * ib := by
    by_contra hc
    have := (lt_ceilDiv (m := k) (k := ceilDiv k ib) hib).mpr (by omega)
    omega
  have := key _ le_rfl
  rw [Nat.min_eq_left hle] at this
  exact this

/-- **The column algorithm is correct**: the product of the block reflectors is unitary, and times the upper triangle
it is the original matrix. -/
theorem hqr_correct (hs : SupOK sup) (hib : 0 < ib) {k : Nat} (hkd : k ≤ d) (hk : ∀ c, c < n → k ≤ c → d ≤ c + 1) (s : HSt 𝕜)
    (hz : ∀ c, c < n → ∀ r, r < d → ¬ (r ≤ c ∨ sup c r) → s.X r c = 0) :
    wy d k ib (hvec sup (hqr d n k ib sup s).X) (hqr d n k ib sup s).T ∈ unitaryGroup (Fin d) 𝕜 ∧
    ∀ r c, r < d → c < n → lmul (wy d k ib (hvec sup (hqr d n k ib sup s).X) (hqr d n k ib sup s).T)
      (triu (hqr d n k ib sup s).X) r c = s.X r c := by
  have h := hqr_inv (n := n) hs hib hkd s hz
  rw [wy_hQ hib h]
  refine ⟨hprod_unit h.unit, fun r c hr hc => ?_⟩
  have he := congrFun (h.eq c hc) ⟨r, hr⟩
  rw [ite_self] at he
  rw [← he]
  unfold lmul
  rw [dif_pos hr]
  refine sum_congr rfl fun l _ => ?_
  dsimp only
  by_cases hck : c < k
  · rw [if_pos hck]
  · rw [if_neg hck]
    unfold triu
    have := hk c hc (by omega)
    rw [if_pos (by omega)]

end

end Verif.Qr

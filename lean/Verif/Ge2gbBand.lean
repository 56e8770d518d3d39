/-
Reduction of a general matrix to band form: the zero pattern through the steps of `plasma_pzge2gb`.
-/
import Verif.Ge2gb

namespace Verif.Qr

open Verif.Layout Verif.Tile Verif.Tree Finset Matrix

universe u v

set_option linter.unusedSectionVars false

section
variable {M : Type u} {α : Type v} [CommRing α] [StarRing α] {A T : TMat M} {b ib : Nat} {K : QrKern α}

open Classical in
/-- The entries in the pattern `R`, zero elsewhere. -/
noncomputable def mask (R : Nat → Nat → Prop) (X : Nat → Nat → α) (r c : Nat) : α := if R r c then X r c else 0

theorem mask_pos {R : Nat → Nat → Prop} {X : Nat → Nat → α} {r c : Nat} (h : R r c) : mask R X r c = X r c := if_pos h

theorem mask_neg {R : Nat → Nat → Prop} {X : Nat → Nat → α} {r c : Nat} (h : ¬ R r c) : mask R X r c = 0 := if_neg h

theorem mask_congr {R R' : Nat → Nat → Prop} {X X' : Nat → Nat → α} {r c r' c' : Nat} (h : R r c ↔ R' r' c')
    (hx : R r c → X r c = X' r' c') : mask R X r c = mask R' X' r' c' := by
  by_cases g : R r c
  · rw [mask_pos g, mask_pos (h.mp g), hx g]
  · rw [mask_neg g, mask_neg (fun e => g (h.mpr e))]

theorem lmul_zero' {d : Nat} (Q : Matrix (Fin d) (Fin d) α) {X : Nat → Nat → α} {i j : Nat} (hi : i < d)
    (h : ∀ l, l < d → X l j = 0) : lmul Q X i j = 0 := by
  unfold lmul
  rw [dif_pos hi]
  exact sum_eq_zero fun l _ => by rw [h l l.2, mul_zero]

theorem rmul_zero' {d : Nat} (Q : Matrix (Fin d) (Fin d) α) {X : Nat → Nat → α} {i j : Nat} (hj : j < d)
    (h : ∀ l, l < d → X i l = 0) : rmul X Q i j = 0 := by
  unfold rmul
  rw [dif_pos hj]
  exact sum_eq_zero fun l _ => by rw [h l l.2, zero_mul]

theorem rowMap_add (m p : Nat) : RowMap m (m - p) (fun i => p + i) where
  lt l h := by show p + l < m; omega
  inj l l' _ _ e := by have e : p + l = p + l' := e; omega

/-- The unitary matrix of the QR factorization of the panel of `w` columns at tile `(p, q)` (compute/pzge2gb.c:41-46, 89-94), from
the reflectors the factorization leaves in `A` and `T`. -/
noncomputable def qPan (b ib : Nat) (A T : TMat M) (s : Store (M × Nat × Nat) α) (p q w : Nat) : Matrix (Fin A.d.m) (Fin A.d.m) α :=
  gemb A.d.m (fun i => p * b + i) (qAll b (A.d.m - p * b) w ib id (A.sub (p * b) (q * b) (A.d.m - p * b) w) T s
    (flatOps (A.sub (p * b) (q * b) (A.d.m - p * b) w).d.mt (A.sub (p * b) (q * b) (A.d.m - p * b) w).d.nt))

/-- The unitary matrix of the LQ factorization of the panel of `h` rows at tile `(p, q)` (compute/pzge2gb.c:58-63, 76-81). -/
noncomputable def lPan (b ib : Nat) (A T : TMat M) (s : Store (M × Nat × Nat) α) (p q h : Nat) : Matrix (Fin A.d.n) (Fin A.d.n) α :=
  gemb A.d.n (fun i => q * b + i) (lqAll (tFlip T.id) b h (A.d.n - q * b) ib id (A.sub (p * b) (q * b) h (A.d.n - q * b)) T.trp s
    (flatOps (A.sub (p * b) (q * b) h (A.d.n - q * b)).d.nt (A.sub (p * b) (q * b) h (A.d.n - q * b)).d.mt))

/-- A QR step takes the pattern `R` to `R'`. -/
theorem pat_qr (hK : QrSpec K) (hib : 0 < ib) (hA : A.Al b) (hT : T.id ≠ A.id) (hTb : T.d.mb = ib) {p q w : Nat}
    (hw : w ≤ b) {g : Prop} [Decidable g] (hg : (q + 1) * b < A.d.n → g) (s : Store (M × Nat × Nat) α)
    {s' : Store (M × Nat × Nat) α}
    (hs' : s' = texec (pzgeqrf K (A.sub (p * b) (q * b) (A.d.m - p * b) w) T ++
      if g then pzunmqr true true (A.sub (p * b) (q * b) (A.d.m - p * b) w) T
        (A.sub (p * b) ((q + 1) * b) (A.d.m - p * b) (A.d.n - (q + 1) * b)) else []) s)
    (hwn : A.d.n ≤ q * b + w ∨ w = b) {R R' : Nat → Nat → Prop}
    (h1 : ∀ r c, p * b ≤ r → r < A.d.m → q * b ≤ c → c < A.d.n → R r c ∧ (R' r c ↔ q * b + b ≤ c ∨ r + q * b ≤ c + p * b))
    (h2 : ∀ r c, r < A.d.m → c < A.d.n → r < p * b ∨ c < q * b → (R r c ↔ R' r c))
    (h3 : ∀ r c, p * b ≤ r → r < A.d.m → c < q * b → c < A.d.n → ¬ R r c) :
    ∃ G ∈ unitaryGroup (Fin A.d.m) α, (G = qPan b ib A T s' p q w ∧
      ∀ x, (∀ r c, x ≠ A.at' (p + r) (q + c)) → (∀ r c, x ≠ T.at' r c) → s' x = s x) ∧ mat A.d.m A.d.n (mask R (A.el s)) = G * mat A.d.m A.d.n (mask R' (A.el s')) := by
  obtain ⟨Q, hQ, ⟨eQ, eF⟩, e1, e2, e3⟩ := qr_step hK hib hA hT hTb hw hg s hs'
  have hR := rowMap_add A.d.m (p * b)
  refine ⟨gemb A.d.m (fun i => p * b + i) Q, gemb_unitary hR hQ, ⟨by rw [eQ]; rfl, eF⟩, ?_⟩
  have hq1 : (q + 1) * b = q * b + b := by rw [Nat.add_mul, Nat.one_mul]
  ext ⟨r, hr⟩ ⟨c, hc⟩
  rw [mul_mat]
  show mask R (A.el s) r c = lmul _ _ r c
  by_cases hrp : r < p * b
  · rw [lmul_gemb_out _ _ (fun l _ => by show p * b + l ≠ r; omega)]
    exact mask_congr (h2 r c hr hc (Or.inl hrp)) fun _ => (e3 r c (Or.inl hrp)).symm
  obtain ⟨i, rfl⟩ := Nat.exists_eq_add_of_le (Nat.le_of_not_lt hrp)
  have hi : i < A.d.m - p * b := by omega
  have hin := lmul_gemb_in hR Q (mask R' (A.el s')) hi c
  rw [show lmul (gemb A.d.m (fun i => p * b + i) Q) (mask R' (A.el s')) (p * b + i) c = _ from hin]
  by_cases hcq : c < q * b
  · rw [mask_neg (h3 _ c (by omega) hr hcq hc)]
    refine (lmul_zero' Q hi fun l hl => ?_).symm
    refine mask_neg fun e => h3 (p * b + l) c (by omega) (by omega) hcq hc ?_
    exact (h2 _ _ (by omega) hc (Or.inr hcq)).mpr e
  obtain ⟨j, rfl⟩ := Nat.exists_eq_add_of_le (Nat.le_of_not_lt hcq)
  rw [mask_pos (h1 _ _ (by omega) hr (by omega) hc).1]
  by_cases hj : b ≤ j
  · rw [← e2 i (q * b + j) hi (by omega) hc]
    refine lmul_eq hi fun l hl => ?_
    exact (mask_pos ((h1 _ _ (by omega) (by omega) (by omega) hc).2.mpr (Or.inl (by omega)))).symm
  · rw [← e1 i j hi (by omega)]
    refine lmul_eq hi fun l hl => ?_
    have h4 := (h1 (p * b + l) (q * b + j) (by omega) (by omega) (by omega) hc).2
    unfold triu
    by_cases h : l ≤ j
    · rw [if_pos h, mask_pos (h4.mpr (Or.inr (by omega)))]
    · rw [if_neg h, mask_neg (fun e => by have := h4.mp e; omega)]

/-- An LQ step takes the pattern `R` to `R'`. -/
theorem pat_lq (hK : QrSpec K) (hib : 0 < ib) (hA : A.Al b) (hT : T.id ≠ A.id) (hTb : T.d.mb = ib) {p q h : Nat}
    (hh : h ≤ b) {g : Prop} [Decidable g] (hg : (p + 1) * b < A.d.m → g) (s : Store (M × Nat × Nat) α)
    {s' : Store (M × Nat × Nat) α}
    (hs' : s' = texec (pzgelqf K (A.sub (p * b) (q * b) h (A.d.n - q * b)) T ++
      if g then pzunmlq false true (A.sub (p * b) (q * b) h (A.d.n - q * b)) T
        (A.sub ((p + 1) * b) (q * b) (A.d.m - (p + 1) * b) (A.d.n - q * b)) else []) s)
    (hhm : A.d.m ≤ p * b + h ∨ h = b) {R R' : Nat → Nat → Prop}
    (h1 : ∀ r c, p * b ≤ r → r < A.d.m → q * b ≤ c → c < A.d.n → R r c ∧ (R' r c ↔ p * b + b ≤ r ∨ c + p * b ≤ r + q * b))
    (h2 : ∀ r c, r < A.d.m → c < A.d.n → r < p * b ∨ c < q * b → (R r c ↔ R' r c))
    (h3 : ∀ r c, r < p * b → r < A.d.m → q * b ≤ c → c < A.d.n → ¬ R r c) :
    ∃ G ∈ unitaryGroup (Fin A.d.n) α, (G = lPan b ib A T s' p q h ∧
      ∀ x, (∀ r c, x ≠ A.at' (p + r) (q + c)) → (∀ r c, x ≠ T.at' r c) → s' x = s x) ∧ mat A.d.m A.d.n (mask R (A.el s)) = mat A.d.m A.d.n (mask R' (A.el s')) * G := by
  obtain ⟨Q, hQ, ⟨eQ, eF⟩, e1, e2, e3⟩ := lq_step hK hib hA hT hTb hh hg s hs'
  have hR := rowMap_add A.d.n (q * b)
  refine ⟨gemb A.d.n (fun i => q * b + i) Q, gemb_unitary hR hQ, ⟨by rw [eQ]; rfl, eF⟩, ?_⟩
  have hq1 : (p + 1) * b = p * b + b := by rw [Nat.add_mul, Nat.one_mul]
  ext ⟨r, hr⟩ ⟨c, hc⟩
  rw [mat_mul]
  show mask R (A.el s) r c = rmul _ _ r c
  by_cases hcq : c < q * b
  · rw [rmul_gemb_out _ _ (fun l _ => by show q * b + l ≠ c; omega)]
    exact mask_congr (h2 r c hr hc (Or.inr hcq)) fun _ => (e3 r c (Or.inr hcq)).symm
  obtain ⟨i, rfl⟩ := Nat.exists_eq_add_of_le (Nat.le_of_not_lt hcq)
  have hi : i < A.d.n - q * b := by omega
  have hin := rmul_gemb_in hR Q (mask R' (A.el s')) hi r
  rw [show rmul (mask R' (A.el s')) (gemb A.d.n (fun i => q * b + i) Q) r (q * b + i) = _ from hin]
  by_cases hrp : r < p * b
  · rw [mask_neg (h3 r _ hrp hr (by omega) hc)]
    refine (rmul_zero' Q hi fun l hl => ?_).symm
    refine mask_neg fun e => h3 r (q * b + l) hrp hr (by omega) (by omega) ?_
    exact (h2 _ _ hr (by omega) (Or.inl hrp)).mpr e
  obtain ⟨j, rfl⟩ := Nat.exists_eq_add_of_le (Nat.le_of_not_lt hrp)
  rw [mask_pos (h1 _ _ (by omega) hr (by omega) hc).1]
  by_cases hj : b ≤ j
  · rw [← e2 (p * b + j) i (by omega) hr hi]
    refine rmul_eq hi fun l hl => ?_
    exact (mask_pos ((h1 _ _ (by omega) hr (by omega) (by omega)).2.mpr (Or.inl (by omega)))).symm
  · rw [← e1 j i (by omega) hi]
    refine rmul_eq hi fun l hl => ?_
    have h4 := (h1 (p * b + j) (q * b + l) (by omega) hr (by omega) (by omega)).2
    unfold tril
    by_cases h : l ≤ j
    · rw [if_pos h, mask_pos (h4.mpr (Or.inr (by omega)))]
    · rw [if_neg h, mask_neg (fun e => by have := h4.mp e; omega)]

/-! ### The whole reduction -/

/-- `X = Q Y P` with unitary factors. -/
def UEq {m n : Nat} (X Y : Matrix (Fin m) (Fin n) α) : Prop :=
  ∃ Q ∈ unitaryGroup (Fin m) α, ∃ P ∈ unitaryGroup (Fin n) α, X = Q * Y * P

theorem UEq.refl {m n : Nat} (X : Matrix (Fin m) (Fin n) α) : UEq X X :=
  ⟨1, one_mem _, 1, one_mem _, by rw [Matrix.one_mul, Matrix.mul_one]⟩

theorem UEq.trans {m n : Nat} {X Y Z : Matrix (Fin m) (Fin n) α} (h : UEq X Y) (g : UEq Y Z) : UEq X Z := by
  obtain ⟨Q, hQ, P, hP, rfl⟩ := h
  obtain ⟨Q', hQ', P', hP', rfl⟩ := g
  exact ⟨Q * Q', mul_mem hQ hQ', P' * P, mul_mem hP' hP, by simp only [Matrix.mul_assoc]⟩

theorem UEq.left {m n : Nat} {X Y : Matrix (Fin m) (Fin n) α} {Q : Matrix (Fin m) (Fin m) α}
    (hQ : Q ∈ unitaryGroup (Fin m) α) (h : X = Q * Y) : UEq X Y := ⟨Q, hQ, 1, one_mem _, by rw [Matrix.mul_one, h]⟩

theorem UEq.right {m n : Nat} {X Y : Matrix (Fin m) (Fin n) α} {P : Matrix (Fin n) (Fin n) α}
    (hP : P ∈ unitaryGroup (Fin n) α) (h : X = Y * P) : UEq X Y := ⟨1, one_mem _, P, hP, by rw [Matrix.one_mul, h]⟩

/-- Upper band: `b` diagonals above the main one. -/
def UBand (b r c : Nat) : Prop := r ≤ c ∧ c ≤ r + b

/-- Lower band: `b` diagonals below the main one. -/
def LBand (b r c : Nat) : Prop := c ≤ r ∧ r ≤ c + b

/-- The last tile column ends the matrix, the others are full. -/
theorem nview_end (hA : A.Al b) {k : Nat} (hk : k < A.d.nt) : A.d.n ≤ k * b + A.d.nview k ∨ A.d.nview k = b := by
  rw [hA.nview hk]
  rcases Nat.le_total b (A.d.n - k * b) with h | h
  · exact Or.inr (Nat.min_eq_left h)
  · left; unfold tdim; rw [Nat.min_eq_right h]; omega

theorem mview_end (hA : A.Al b) {k : Nat} (hk : k < A.d.mt) : A.d.m ≤ k * b + A.d.mview k ∨ A.d.mview k = b := by
  rw [hA.mview hk]
  rcases Nat.le_total b (A.d.m - k * b) with h | h
  · exact Or.inr (Nat.min_eq_left h)
  · left; unfold tdim; rw [Nat.min_eq_right h]; omega

/-- **Band reduction of a tall matrix**: `A = Q B P` with `B` upper band, `Q` and `P` unitary. -/
theorem ge2gb_tall (hK : QrSpec K) (hib : 0 < ib) (hA : A.Al b) (hT : T.id ≠ A.id) (hTb : T.d.mb = ib) (hmn : A.d.n ≤ A.d.m)
    (s : Store (M × Nat × Nat) α) :
    UEq (mat A.d.m A.d.n (A.el s)) (mat A.d.m A.d.n (mask (UBand b) (A.el (texec (pzge2gb K A T) s)))) := by
  have hb := hA.pos
  unfold pzge2gb
  rw [if_pos hmn, hA.mb, hA.nb]
  have key : ∀ k, k ≤ A.d.nt → UEq (mat A.d.m A.d.n (A.el s)) (mat A.d.m A.d.n
      (mask (fun r c => (k * b ≤ r ∧ k * b ≤ c) ∨ UBand b r c) (A.el (texec ((List.range k).flatMap fun k =>
      pzgeqrf K (A.sub (k * b) (k * b) (A.d.m - k * b) (A.d.nview k))
        (T.sub (k * T.d.mb) (k * T.d.nb) (T.d.m - k * T.d.mb) (A.d.nview k)) ++
      ((if k + 1 < A.d.nt then
        pzunmqr true true (A.sub (k * b) (k * b) (A.d.m - k * b) (A.d.nview k))
          (T.sub (k * T.d.mb) (k * T.d.nb) (T.d.m - k * T.d.mb) (A.d.nview k))
          (A.sub (k * b) ((k + 1) * b) (A.d.m - k * b) (A.d.n - (k + 1) * b)) else []) ++
      if k + 1 < A.d.nt then
        pzgelqf K (A.sub (k * b) ((k + 1) * b) (A.d.mview k) (A.d.n - (k + 1) * b))
          (T.sub (k * T.d.mb) ((k + 1) * T.d.nb) T.d.mb (T.d.n - (k + 1) * T.d.nb)) ++
        pzunmlq false true (A.sub (k * b) ((k + 1) * b) (A.d.mview k) (A.d.n - (k + 1) * b))
          (T.sub (k * T.d.mb) ((k + 1) * T.d.nb) T.d.mb (T.d.n - (k + 1) * T.d.nb))
          (A.sub ((k + 1) * b) ((k + 1) * b) (A.d.m - (k + 1) * b) (A.d.n - (k + 1) * b)) else [])) s)))) := by
    intro k
    induction k with
    | zero =>
      intro _
      have : mat A.d.m A.d.n (mask (fun r c => (0 * b ≤ r ∧ 0 * b ≤ c) ∨ UBand b r c) (A.el s)) = mat A.d.m A.d.n (A.el s) := by
        ext r c
        refine mask_pos (R := fun r c => (0 * b ≤ r ∧ 0 * b ≤ c) ∨ _) (Or.inl ⟨?_, ?_⟩) <;> omega
      show UEq _ (mat A.d.m A.d.n (mask (fun r c => (0 * b ≤ r ∧ 0 * b ≤ c) ∨ UBand b r c) (A.el s)))
      rw [this]
      exact UEq.refl _
    | succ k ih =>
      intro hk
      refine (ih (by omega)).trans ?_
      rw [List.range_succ, List.flatMap_append, texec_append, List.flatMap_singleton, ← List.append_assoc]
      set s0 := texec ((List.range k).flatMap _) s
      rw [texec_append]
      have hkn : k * b < A.d.n := by rw [← lt_ceilDiv hb, ← hA.nt_eq]; omega
      have hkm : k < A.d.mt := by rw [hA.mt_eq, lt_ceilDiv hb]; omega
      have hk1 : (k + 1) * b = k * b + b := by rw [Nat.add_mul, Nat.one_mul]
      set s1 := texec _ s0 with hs1
      obtain ⟨G, hG, _, e1⟩ := pat_qr (T := T.sub (k * T.d.mb) (k * T.d.nb) (T.d.m - k * T.d.mb) (A.d.nview k))
        hK hib hA hT hTb (p := k) (q := k) (nview_le hA (by omega)) (g := k + 1 < A.d.nt)
        (fun h => by rw [hA.nt_eq, lt_ceilDiv hb]; exact h) s0 hs1 (nview_end hA (by omega))
        (R := fun r c => (k * b ≤ r ∧ k * b ≤ c) ∨ UBand b r c) (R' := fun r c => (k * b ≤ r ∧ k * b + b ≤ c) ∨ UBand b r c)
        (fun r c h1 h2 h3 h4 => by unfold UBand; omega) (fun r c h1 h2 h3 => by unfold UBand; omega)
        (fun r c h1 h2 h3 h4 => by unfold UBand; omega)
      refine (UEq.left hG e1).trans ?_
      by_cases hl : k + 1 < A.d.nt
      · have hmv : A.d.mview k = b := by
          have := nview_full hA (Nat.lt_succ_self k) hl
          rw [hA.nt_eq, lt_ceilDiv hb] at hl
          refine mview_full hA (Nat.lt_succ_self k) ?_
          rw [hA.mt_eq, lt_ceilDiv hb]
          show (k + 1) * b < A.d.m
          omega
        rw [if_pos hl]
        set s2 := texec _ s1 with hs2
        obtain ⟨G', hG', _, e2⟩ := pat_lq (T := T.sub (k * T.d.mb) ((k + 1) * T.d.nb) T.d.mb (T.d.n - (k + 1) * T.d.nb))
          hK hib hA hT hTb (p := k) (q := k + 1) (le_of_eq hmv) (g := True) (fun _ => trivial) s1
          hs2 (Or.inr hmv)
          (R := fun r c => (k * b ≤ r ∧ k * b + b ≤ c) ∨ UBand b r c)
          (R' := fun r c => ((k + 1) * b ≤ r ∧ (k + 1) * b ≤ c) ∨ UBand b r c)
          (fun r c h1 h2 h3 h4 => by unfold UBand; omega) (fun r c h1 h2 h3 => by unfold UBand; omega)
          (fun r c h1 h2 h3 h4 => by unfold UBand; omega)
        exact UEq.right hG' e2
      · rw [if_neg hl]
        show UEq _ (mat A.d.m A.d.n (mask (fun r c => ((k + 1) * b ≤ r ∧ (k + 1) * b ≤ c) ∨ UBand b r c) (A.el s1)))
        have hn : A.d.n ≤ (k + 1) * b := by
          rw [hA.nt_eq, lt_ceilDiv hb] at hl
          omega
        have : mat A.d.m A.d.n (mask (fun r c => (k * b ≤ r ∧ k * b + b ≤ c) ∨ UBand b r c) (A.el s1)) =
            mat A.d.m A.d.n (mask (fun r c => ((k + 1) * b ≤ r ∧ (k + 1) * b ≤ c) ∨ UBand b r c) (A.el s1)) := by
          ext r c
          have := c.2
          rw [mat_apply, mat_apply]
          refine mask_congr ?_ fun _ => rfl
          unfold UBand; omega
        rw [this]
        exact UEq.refl _
  have := key A.d.nt le_rfl
  refine this.trans ?_
  set s' := texec _ s
  have hn : A.d.n ≤ A.d.nt * b := by
    have : ¬ A.d.nt < A.d.nt := lt_irrefl _
    rw [hA.nt_eq, lt_ceilDiv hb, ← hA.nt_eq] at this
    omega
  have e : mat A.d.m A.d.n (mask (fun r c => (A.d.nt * b ≤ r ∧ A.d.nt * b ≤ c) ∨ UBand b r c) (A.el s')) =
      mat A.d.m A.d.n (mask (UBand b) (A.el s')) := by
    ext r c
    have := c.2
    rw [mat_apply, mat_apply]
    refine mask_congr ?_ fun _ => rfl
    unfold UBand; omega
  rw [e]
  exact UEq.refl _

/-- **Band reduction of a wide matrix**: `A = Q B P` with `B` lower band, `Q` and `P` unitary. -/
theorem ge2gb_wide (hK : QrSpec K) (hib : 0 < ib) (hA : A.Al b) (hT : T.id ≠ A.id) (hTb : T.d.mb = ib) (hmn : A.d.m < A.d.n)
    (s : Store (M × Nat × Nat) α) :
    UEq (mat A.d.m A.d.n (A.el s)) (mat A.d.m A.d.n (mask (LBand b) (A.el (texec (pzge2gb K A T) s)))) := by
  have hb := hA.pos
  unfold pzge2gb
  rw [if_neg (by omega), hA.mb, hA.nb]
  have key : ∀ k, k ≤ A.d.mt → UEq (mat A.d.m A.d.n (A.el s)) (mat A.d.m A.d.n
      (mask (fun r c => (k * b ≤ r ∧ k * b ≤ c) ∨ LBand b r c) (A.el (texec ((List.range k).flatMap fun k =>
      pzgelqf K (A.sub (k * b) (k * b) (A.d.mview k) (A.d.n - k * b))
        (T.sub (k * T.d.mb) (k * T.d.nb) T.d.mb (T.d.n - k * T.d.nb)) ++
      ((if k + 1 < A.d.mt then
        pzunmlq false true (A.sub (k * b) (k * b) (A.d.mview k) (A.d.n - k * b))
          (T.sub (k * T.d.mb) (k * T.d.nb) T.d.mb (T.d.n - k * T.d.nb))
          (A.sub ((k + 1) * b) (k * b) (A.d.m - (k + 1) * b) (A.d.n - k * b)) else []) ++
      if k + 1 < A.d.mt then
        pzgeqrf K (A.sub ((k + 1) * b) (k * b) (A.d.m - (k + 1) * b) (A.d.nview k))
          (T.sub ((k + 1) * T.d.mb) (k * T.d.nb) (T.d.m - (k + 1) * T.d.mb) (A.d.nview k)) ++
        pzunmqr true true (A.sub ((k + 1) * b) (k * b) (A.d.m - (k + 1) * b) (A.d.nview k))
          (T.sub ((k + 1) * T.d.mb) (k * T.d.nb) (T.d.m - (k + 1) * T.d.mb) (A.d.nview k))
          (A.sub ((k + 1) * b) ((k + 1) * b) (A.d.m - (k + 1) * b) (A.d.n - (k + 1) * b)) else [])) s)))) := by
    intro k
    induction k with
    | zero =>
      intro _
      have : mat A.d.m A.d.n (mask (fun r c => (0 * b ≤ r ∧ 0 * b ≤ c) ∨ LBand b r c) (A.el s)) = mat A.d.m A.d.n (A.el s) := by
        ext r c
        refine mask_pos (R := fun r c => (0 * b ≤ r ∧ 0 * b ≤ c) ∨ _) (Or.inl ⟨?_, ?_⟩) <;> omega
      show UEq _ (mat A.d.m A.d.n (mask (fun r c => (0 * b ≤ r ∧ 0 * b ≤ c) ∨ LBand b r c) (A.el s)))
      rw [this]
      exact UEq.refl _
    | succ k ih =>
      intro hk
      refine (ih (by omega)).trans ?_
      rw [List.range_succ, List.flatMap_append, texec_append, List.flatMap_singleton, ← List.append_assoc]
      set s0 := texec ((List.range k).flatMap _) s
      rw [texec_append]
      have hkm : k * b < A.d.m := by rw [← lt_ceilDiv hb, ← hA.mt_eq]; omega
      have hkn : k < A.d.nt := by rw [hA.nt_eq, lt_ceilDiv hb]; omega
      have hk1 : (k + 1) * b = k * b + b := by rw [Nat.add_mul, Nat.one_mul]
      set s1 := texec _ s0 with hs1
      obtain ⟨G, hG, _, e1⟩ := pat_lq (T := T.sub (k * T.d.mb) (k * T.d.nb) T.d.mb (T.d.n - k * T.d.nb))
        hK hib hA hT hTb (p := k) (q := k) (mview_le hA (by omega)) (g := k + 1 < A.d.mt)
        (fun h => by rw [hA.mt_eq, lt_ceilDiv hb]; exact h) s0 hs1 (mview_end hA (by omega))
        (R := fun r c => (k * b ≤ r ∧ k * b ≤ c) ∨ LBand b r c) (R' := fun r c => (k * b + b ≤ r ∧ k * b ≤ c) ∨ LBand b r c)
        (fun r c h1 h2 h3 h4 => by unfold LBand; omega) (fun r c h1 h2 h3 => by unfold LBand; omega)
        (fun r c h1 h2 h3 h4 => by unfold LBand; omega)
      refine (UEq.right hG e1).trans ?_
      by_cases hl : k + 1 < A.d.mt
      · have hnv : A.d.nview k = b := by
          rw [hA.mt_eq, lt_ceilDiv hb] at hl
          refine nview_full hA (Nat.lt_succ_self k) ?_
          rw [hA.nt_eq, lt_ceilDiv hb]
          show (k + 1) * b < A.d.n
          omega
        rw [if_pos hl]
        set s2 := texec _ s1 with hs2
        obtain ⟨G', hG', _, e2⟩ := pat_qr (T := T.sub ((k + 1) * T.d.mb) (k * T.d.nb) (T.d.m - (k + 1) * T.d.mb) (A.d.nview k))
          hK hib hA hT hTb (p := k + 1) (q := k) (le_of_eq hnv) (g := True) (fun _ => trivial) s1
          hs2 (Or.inr hnv)
          (R := fun r c => (k * b + b ≤ r ∧ k * b ≤ c) ∨ LBand b r c)
          (R' := fun r c => ((k + 1) * b ≤ r ∧ (k + 1) * b ≤ c) ∨ LBand b r c)
          (fun r c h1 h2 h3 h4 => by unfold LBand; omega) (fun r c h1 h2 h3 => by unfold LBand; omega)
          (fun r c h1 h2 h3 h4 => by unfold LBand; omega)
        exact UEq.left hG' e2
      · rw [if_neg hl]
        show UEq _ (mat A.d.m A.d.n (mask (fun r c => ((k + 1) * b ≤ r ∧ (k + 1) * b ≤ c) ∨ LBand b r c) (A.el s1)))
        have hn : A.d.m ≤ (k + 1) * b := by
          rw [hA.mt_eq, lt_ceilDiv hb] at hl
          omega
        have : mat A.d.m A.d.n (mask (fun r c => (k * b + b ≤ r ∧ k * b ≤ c) ∨ LBand b r c) (A.el s1)) =
            mat A.d.m A.d.n (mask (fun r c => ((k + 1) * b ≤ r ∧ (k + 1) * b ≤ c) ∨ LBand b r c) (A.el s1)) := by
          ext r c
          have := r.2
          rw [mat_apply, mat_apply]
          refine mask_congr ?_ fun _ => rfl
          unfold LBand; omega
        rw [this]
        exact UEq.refl _
  have := key A.d.mt le_rfl
  refine this.trans ?_
  set s' := texec _ s
  have hn : A.d.m ≤ A.d.mt * b := by
    have : ¬ A.d.mt < A.d.mt := lt_irrefl _
    rw [hA.mt_eq, lt_ceilDiv hb, ← hA.mt_eq] at this
    omega
  have e : mat A.d.m A.d.n (mask (fun r c => (A.d.mt * b ≤ r ∧ A.d.mt * b ≤ c) ∨ LBand b r c) (A.el s')) =
      mat A.d.m A.d.n (mask (LBand b) (A.el s')) := by
    ext r c
    have := r.2
    rw [mat_apply, mat_apply]
    refine mask_congr ?_ fun _ => rfl
    unfold LBand; omega
  rw [e]
  exact UEq.refl _

end

end Verif.Qr

/-
Products of block reflectors acting on selected rows of a matrix.
-/
import Verif.Mat
import Mathlib.LinearAlgebra.UnitaryGroup

namespace Verif.Qr

open Verif.Layout Verif.Tile Finset Matrix

universe u v

variable {α : Type v} [CommRing α] [StarRing α]

/-- The leading part of a matrix given by its entries. -/
def mat (m n : Nat) (X : Nat → Nat → α) : Matrix (Fin m) (Fin n) α := Matrix.of fun i j => X i j

@[simp] theorem mat_apply {m n : Nat} (X : Nat → Nat → α) (i : Fin m) (j : Fin n) : mat m n X i j = X i j := rfl

/-- Columns of the identity: column `l` is the unit vector of row `ρ l`. -/
def selM (α : Type v) [CommRing α] (m d : Nat) (ρ : Nat → Nat) : Matrix (Fin m) (Fin d) α :=
  Matrix.of fun i l => if (i : Nat) = ρ l then 1 else 0

/-- `q` acting on rows `ρ 0, …, ρ (d-1)` of vectors of length `m`, the identity on all other rows. -/
def gemb (m : Nat) {d : Nat} (ρ : Nat → Nat) (q : Matrix (Fin d) (Fin d) α) : Matrix (Fin m) (Fin m) α :=
  1 + selM α m d ρ * (q - 1) * (selM α m d ρ)ᴴ

/-- The selected rows exist and are distinct. -/
structure RowMap (m d : Nat) (ρ : Nat → Nat) : Prop where
  lt : ∀ l, l < d → ρ l < m
  inj : ∀ l l', l < d → l' < d → ρ l = ρ l' → l = l'

section
variable {m d n : Nat} {ρ : Nat → Nat}

theorem sel_orth (h : RowMap m d ρ) : (selM α m d ρ)ᴴ * selM α m d ρ = 1 := by
  ext l l'
  simp only [mul_apply, conjTranspose_apply, selM, of_apply, one_apply]
  rw [sum_eq_single (⟨ρ l, h.lt l l.2⟩ : Fin m)]
  · simp only [if_true, star_one, one_mul]
    by_cases hl : l = l'
    · rw [if_pos (by rw [hl]), if_pos hl]
    · rw [if_neg (fun e => hl (Fin.ext (h.inj _ _ l.2 l'.2 e))), if_neg hl]
  · intro b _ hb
    rw [if_neg (fun e => hb (Fin.ext e)), star_zero, zero_mul]
  · intro hn; exact absurd (mem_univ _) hn

theorem gemb_mul (h : RowMap m d ρ) (q q' : Matrix (Fin d) (Fin d) α) :
    gemb m ρ q * gemb m ρ q' = gemb m ρ (q * q') := by
  unfold gemb
  set P := selM α m d ρ
  have e : P * (q - 1) * Pᴴ * (P * (q' - 1) * Pᴴ) = P * ((q - 1) * (q' - 1)) * Pᴴ := by
    calc P * (q - 1) * Pᴴ * (P * (q' - 1) * Pᴴ)
        = P * (q - 1) * (Pᴴ * P) * (q' - 1) * Pᴴ := by simp only [Matrix.mul_assoc]
      _ = P * ((q - 1) * (q' - 1)) * Pᴴ := by rw [sel_orth h, Matrix.mul_one]; simp only [Matrix.mul_assoc]
  rw [add_mul, one_mul, mul_add, mul_one, e]
  have e2 : q * q' - 1 = (q' - 1) + (q - 1) + (q - 1) * (q' - 1) := by noncomm_ring
  rw [e2]
  simp only [Matrix.mul_add, Matrix.add_mul]
  abel

theorem gemb_one : gemb m ρ (1 : Matrix (Fin d) (Fin d) α) = 1 := by
  unfold gemb; simp

theorem gemb_star (q : Matrix (Fin d) (Fin d) α) : (gemb m ρ q)ᴴ = gemb m ρ qᴴ := by
  unfold gemb
  simp only [conjTranspose_add, conjTranspose_one, conjTranspose_mul, conjTranspose_conjTranspose,
    conjTranspose_sub, Matrix.mul_assoc]

theorem gemb_unitary (h : RowMap m d ρ) {q : Matrix (Fin d) (Fin d) α} (hq : q ∈ unitaryGroup (Fin d) α) :
    gemb m ρ q ∈ unitaryGroup (Fin m) α := by
  rw [mem_unitaryGroup_iff] at hq ⊢
  rw [star_eq_conjTranspose] at hq ⊢
  rw [gemb_star, gemb_mul h, hq, gemb_one]

theorem selH_apply (h : RowMap m d ρ) (X : Nat → Nat → α) (l : Fin d) (c : Fin n) :
    ((selM α m d ρ)ᴴ * mat m n X) l c = X (ρ l) c := by
  simp only [mul_apply, conjTranspose_apply, selM, of_apply, mat_apply]
  rw [sum_eq_single (⟨ρ l, h.lt l l.2⟩ : Fin m)]
  · simp
  · intro b _ hb
    rw [if_neg (fun e => hb (Fin.ext e)), star_zero, zero_mul]
  · intro hn; exact absurd (mem_univ _) hn

theorem gemb_in (h : RowMap m d ρ) (q : Matrix (Fin d) (Fin d) α) (X : Nat → Nat → α) (i : Fin d)
    (r : Fin m) (hr : (r : Nat) = ρ i) (c : Fin n) :
    (gemb m ρ q * mat m n X) r c = ∑ l, q i l * X (ρ l) c := by
  unfold gemb
  rw [Matrix.add_mul, Matrix.one_mul, Matrix.add_apply, Matrix.mul_assoc, Matrix.mul_assoc, mul_apply]
  rw [sum_eq_single i]
  · have h1 : selM α m d ρ r i = 1 := by simp [selM, hr]
    rw [h1, one_mul, mul_apply]
    simp only [selH_apply h]
    simp only [Matrix.sub_apply, sub_mul, sum_sub_distrib, one_apply, ite_mul, one_mul, zero_mul]
    rw [sum_ite_eq univ i, if_pos (mem_univ i), mat_apply, hr]
    ring
  · intro b _ hb
    simp only [selM, of_apply]
    rw [if_neg, zero_mul]
    intro e
    exact hb (Fin.ext (h.inj _ _ b.2 i.2 (by omega)))
  · intro hn; exact absurd (mem_univ _) hn

theorem gemb_out (q : Matrix (Fin d) (Fin d) α) (X : Matrix (Fin m) (Fin n) α)
    (r : Fin m) (hr : ∀ l, l < d → ρ l ≠ r) (c : Fin n) :
    (gemb m ρ q * X) r c = X r c := by
  unfold gemb
  rw [Matrix.add_mul, Matrix.one_mul, Matrix.add_apply, Matrix.mul_assoc, Matrix.mul_assoc, mul_apply, sum_eq_zero, add_zero]
  intro l _
  simp only [selM, of_apply]
  rw [if_neg (fun e => hr l l.2 e.symm), zero_mul]

theorem mat_star (X : Nat → Nat → α) : (mat n m X)ᴴ = mat m n fun i j => star (X j i) := by
  ext i j; rfl

theorem gemb_inR (h : RowMap m d ρ) (q : Matrix (Fin d) (Fin d) α) (X : Nat → Nat → α) (i : Fin d)
    (c : Fin m) (hc : (c : Nat) = ρ i) (r : Fin n) :
    (mat n m X * gemb m ρ q) r c = ∑ l : Fin d, X r (ρ l) * q l i := by
  have e : mat n m X * gemb m ρ q = (gemb m ρ qᴴ * (mat n m X)ᴴ)ᴴ := by
    rw [conjTranspose_mul, conjTranspose_conjTranspose, gemb_star, conjTranspose_conjTranspose]
  rw [e, conjTranspose_apply, mat_star, gemb_in h qᴴ _ i c hc r, star_sum]
  refine sum_congr rfl fun l _ => ?_
  rw [star_mul, star_star, conjTranspose_apply, star_star]

theorem gemb_outR (q : Matrix (Fin d) (Fin d) α) (X : Matrix (Fin n) (Fin m) α)
    (c : Fin m) (hc : ∀ l, l < d → ρ l ≠ c) (r : Fin n) :
    (X * gemb m ρ q) r c = X r c := by
  have e : X * gemb m ρ q = (gemb m ρ qᴴ * Xᴴ)ᴴ := by
    rw [conjTranspose_mul, conjTranspose_conjTranspose, gemb_star, conjTranspose_conjTranspose]
  rw [e, conjTranspose_apply, gemb_out _ _ _ hc, conjTranspose_apply, star_star]

end

/-! ### Products of block reflectors -/

/-- Block reflector `b`: `1 - V T V^H` for the columns `b*ib, …` of `v` and the corresponding block of `t`, of which
the upper triangle is used: the effect of LAPACK's `zlarfb` (forward, columnwise), and of `plasma_core_zparfb`
(core_blas/core_zparfb.c:225-305). -/
def wyBlk (d k ib : Nat) (v t : Nat → Nat → α) (b : Nat) : Matrix (Fin d) (Fin d) α :=
  let V : Matrix (Fin d) (Fin (tdim k ib b)) α := Matrix.of fun r l => v r (b * ib + l)
  let T : Matrix (Fin (tdim k ib b)) (Fin (tdim k ib b)) α :=
    Matrix.of fun l l' => if l ≤ l' then t l (b * ib + l') else 0
  1 - V * T * Vᴴ

/-- Product of all block reflectors: the matrix `Q` that `plasma_core_zunmqr` (core_blas/core_zunmqr.c:187-230),
`plasma_core_ztsmqr` (core_blas/core_ztsmqr.c:207-245) and `plasma_core_zttmqr` (core_blas/core_zttmqr.c:208-252)
multiply by. -/
def wy (d k ib : Nat) (v t : Nat → Nat → α) : Matrix (Fin d) (Fin d) α :=
  ((List.range (ceilDiv k ib)).map (wyBlk d k ib v t)).prod

/-- The elements of a `T` tile in use: the upper triangles of its `ib` by `ib` blocks. -/
def tReg (ib k : Nat) (l c : Nat) : Prop := l ≤ c % ib ∧ l < ib ∧ c < k

theorem wyBlk_congr {d k ib : Nat} {v v' t t' : Nat → Nat → α} {b : Nat}
    (hv : ∀ r j, r < d → j < k → v r j = v' r j) (ht : ∀ l c, tReg ib k l c → t l c = t' l c) :
    wyBlk d k ib v t b = wyBlk d k ib v' t' b := by
  have hlt : ∀ l, l < tdim k ib b → l < ib ∧ b * ib + l < k := fun l hl => by unfold tdim at hl; omega
  unfold wyBlk
  have e1 : (Matrix.of fun (r : Fin d) (l : Fin (tdim k ib b)) => v r (b * ib + l)) =
      Matrix.of fun (r : Fin d) (l : Fin (tdim k ib b)) => v' r (b * ib + l) := by
    ext r l; exact hv _ _ r.2 (hlt l l.2).2
  have e2 : (Matrix.of fun (l l' : Fin (tdim k ib b)) => if l ≤ l' then t l (b * ib + l') else 0) =
      Matrix.of fun (l l' : Fin (tdim k ib b)) => if l ≤ l' then t' l (b * ib + l') else 0 := by
    ext l l'
    simp only [of_apply]
    split
    · next h =>
      have h1 := hlt l' l'.2
      apply ht
      refine ⟨?_, (hlt l l.2).1, h1.2⟩
      rw [Nat.mul_comm, Nat.mul_add_mod, Nat.mod_eq_of_lt h1.1]
      exact h
    · rfl
  simp only [e1, e2]

theorem wy_congr {d k ib : Nat} {v v' t t' : Nat → Nat → α}
    (hv : ∀ r j, r < d → j < k → v r j = v' r j) (ht : ∀ l c, tReg ib k l c → t l c = t' l c) :
    wy d k ib v t = wy d k ib v' t' := by
  unfold wy
  congr 1
  exact List.map_congr_left fun b _ => wyBlk_congr hv ht

/-! ### Reflector matrices -/

/-- Reflectors stored below the diagonal of a tile, with unit diagonal. -/
def geV (V : Nat → Nat → α) (r j : Nat) : α := if r = j then 1 else if j < r then V r j else 0

/-- Reflectors of a triangle on top of a square: the identity on top of the tile `V`. -/
def tsV (m1 : Nat) (V : Nat → Nat → α) (r j : Nat) : α :=
  if r < m1 then (if r = j then 1 else 0) else V (r - m1) j

/-- Reflectors of a triangle on top of a triangle: the identity on top of the upper triangle of the tile `V`. -/
def ttV (m1 : Nat) (V : Nat → Nat → α) (r j : Nat) : α :=
  if r < m1 then (if r = j then 1 else 0) else if r - m1 ≤ j then V (r - m1) j else 0

/-! ### Local products -/

/-- `Q` or its adjoint (`PlasmaNoTrans`, `Plasma_ConjTrans`). -/
def qop (t : Bool) {d : Nat} (Q : Matrix (Fin d) (Fin d) α) : Matrix (Fin d) (Fin d) α := if t then Qᴴ else Q

/-- Product from the left with entries given by natural numbers. -/
def lmul {d : Nat} (Q : Matrix (Fin d) (Fin d) α) (X : Nat → Nat → α) (i j : Nat) : α :=
  if h : i < d then ∑ l, Q ⟨i, h⟩ l * X l j else X i j

/-- Product from the right. -/
def rmul {d : Nat} (X : Nat → Nat → α) (Q : Matrix (Fin d) (Fin d) α) (i j : Nat) : α :=
  if h : j < d then ∑ l : Fin d, X i l * Q l ⟨j, h⟩ else X i j

/-- `A1` on top of `A2`. -/
def vstack (m1 : Nat) (A1 A2 : Nat → Nat → α) (i j : Nat) : α := if i < m1 then A1 i j else A2 (i - m1) j

/-- `A1` beside `A2`. -/
def hstack (n1 : Nat) (A1 A2 : Nat → Nat → α) (i j : Nat) : α := if j < n1 then A1 i j else A2 i (j - n1)

omit [StarRing α] in
theorem lmul_congr {d : Nat} {Q : Matrix (Fin d) (Fin d) α} {X X' : Nat → Nat → α} {i j : Nat} (hi : i < d)
    (h : ∀ l, l < d → X l j = X' l j) : lmul Q X i j = lmul Q X' i j := by
  unfold lmul
  rw [dif_pos hi, dif_pos hi]
  exact sum_congr rfl fun l _ => by rw [h l l.2]

omit [StarRing α] in
theorem rmul_congr {d : Nat} {Q : Matrix (Fin d) (Fin d) α} {X X' : Nat → Nat → α} {i j : Nat} (hj : j < d)
    (h : ∀ l, l < d → X i l = X' i l) : rmul X Q i j = rmul X' Q i j := by
  unfold rmul
  rw [dif_pos hj, dif_pos hj]
  exact sum_congr rfl fun l _ => by rw [h l l.2]

/-- The upper triangle. -/
def triu (X : Nat → Nat → α) (i j : Nat) : α := if i ≤ j then X i j else 0

theorem qop_gemb {m d : Nat} {ρ : Nat → Nat} (t : Bool) (q : Matrix (Fin d) (Fin d) α) :
    qop t (gemb m ρ q) = gemb m ρ (qop t q) := by
  cases t
  · rfl
  · exact gemb_star q

end Verif.Qr

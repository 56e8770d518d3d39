/-
Triangular matrices: the entries a triangular kernel uses, substitution, and the
arithmetic of blocked substitution.
-/
import Verif.Rank
import Mathlib.Algebra.Field.Basic
import Mathlib.Algebra.BigOperators.Fin
import Mathlib.Tactic.FieldSimp
import Mathlib.Tactic.Ring
import Mathlib.Tactic.LinearCombination

namespace Verif.Tile

open Verif.Layout Finset

universe u v

/-- `PlasmaNonUnit` / `PlasmaUnit` (include/plasma_types.h:78-79). -/
inductive Diag | nonUnit | unit
deriving DecidableEq, Repr

/-- Division.  The quotient by zero is left open: it is a floating-point infinity or NaN
in the code. -/
structure IsDiv {α : Type v} [Field α] (dv : α → α → α) : Prop where
  eq : ∀ x y, y ≠ 0 → dv x y = x / y

/-- The triangular matrix a kernel takes the stored array `A` for: the other triangle is
zero, and so is not read; the diagonal is one, and so is not read, for `PlasmaUnit`
(BLAS documentation of ztrsm, ztrmm). -/
def trE {α : Type v} [Zero α] [One α] (u : Uplo) (d : Diag) (A : Nat → Nat → α) (i j : Nat) : α :=
  if i = j then (if d = .unit then 1 else A i j) else if inTri u i j then A i j else 0

/-- Elements of the stored array a triangular kernel reads. -/
def triD (u : Uplo) (d : Diag) (n : Nat) : Nat → Nat → Prop := fun i j =>
  i < n ∧ j < n ∧ inTri u i j ∧ (d = .unit → i ≠ j)

/-- `op(A)` is lower triangular. -/
def opLow (u : Uplo) (t : Trans) : Bool := decide (u = .lower) == decide (t = .noTrans)

variable {α : Type v}

theorem trE_congr [Zero α] [One α] {u : Uplo} {d : Diag} {A A' : Nat → Nat → α} {n i j : Nat}
    (hi : i < n) (hj : j < n) (h : ∀ i j, triD u d n i j → A i j = A' i j) :
    trE u d A i j = trE u d A' i j := by
  unfold trE
  split
  · rename_i hij
    split
    · rfl
    · rename_i hd
      apply h
      refine ⟨hi, hj, ?_, fun h => absurd h hd⟩
      subst hij; unfold inTri; cases u <;> simp
  · rename_i hij
    split
    · rename_i ht
      exact h _ _ ⟨hi, hj, ht, fun _ => hij⟩
    · rfl

theorem trE_off [Zero α] [One α] {u : Uplo} {d : Diag} {A : Nat → Nat → α} {i j : Nat}
    (h : inTri u i j) (hne : i ≠ j) : trE u d A i j = A i j := by
  unfold trE; rw [if_neg hne, if_pos h]

theorem trE_out [Zero α] [One α] {u : Uplo} {d : Diag} {A : Nat → Nat → α} {i j : Nat}
    (h : ¬ inTri u i j) : trE u d A i j = 0 := by
  unfold trE; rw [if_neg, if_neg h]
  rintro rfl; apply h; unfold inTri; cases u <;> simp

theorem opE_zero [CommRing α] [StarRing α] {t : Trans} {A : Nat → Nat → α} {i j : Nat}
    (h : (if t = .noTrans then A i j else A j i) = 0) : opE t A i j = 0 := by
  cases t <;> simp_all [opE]

/-- `op` of a triangular matrix vanishes in the other triangle. -/
theorem op_tri_zero [CommRing α] [StarRing α] {u : Uplo} {t : Trans} {d : Diag} {A : Nat → Nat → α}
    {i j : Nat} (h : if opLow u t then i < j else j < i) : opE t (trE u d A) i j = 0 := by
  apply opE_zero
  unfold opLow at h
  cases u <;> cases t <;> simp at h ⊢ <;> apply trE_out <;> unfold inTri <;> simp <;> omega

/-! ### Substitution -/

section
variable [CommRing α]

/-- Forward substitution. -/
def lsolve (dv : α → α → α) (T : Nat → Nat → α) (b : Nat → α) : Nat → α
  | i => dv (b i - ∑ l : Fin i, T i l * lsolve dv T b l) (T i i)
decreasing_by exact l.2

theorem lsolve_eq (dv : α → α → α) (T : Nat → Nat → α) (b : Nat → α) (i : Nat) :
    lsolve dv T b i = dv (b i - ∑ l ∈ range i, T i l * lsolve dv T b l) (T i i) := by
  rw [lsolve, Finset.sum_range (fun l => T i l * lsolve dv T b l)]

/-- Substitution with a lower (`low`) or upper triangular matrix of order `n`. -/
def tsolve (dv : α → α → α) (low : Bool) (n : Nat) (T : Nat → Nat → α) (b : Nat → α) (i : Nat) : α :=
  if low then lsolve dv T b i
  else lsolve dv (fun i l => T (n - 1 - i) (n - 1 - l)) (fun i => b (n - 1 - i)) (n - 1 - i)

theorem lsolve_congr {dv : α → α → α} {T T' : Nat → Nat → α} {b b' : Nat → α} {n : Nat}
    (hT : ∀ i j, i < n → j < n → T i j = T' i j) (hb : ∀ i, i < n → b i = b' i) :
    ∀ i, i < n → lsolve dv T b i = lsolve dv T' b' i := by
  intro i
  induction i using Nat.strong_induction_on with
  | _ i ih =>
    intro hi
    rw [lsolve_eq, lsolve_eq, hb i hi, hT i i hi hi]
    congr 2
    refine Finset.sum_congr rfl fun l hl => ?_
    rw [Finset.mem_range] at hl
    rw [hT i l hi (by omega), ih l hl (by omega)]

theorem tsolve_congr {dv : α → α → α} {low : Bool} {T T' : Nat → Nat → α} {b b' : Nat → α} {n : Nat}
    (hT : ∀ i j, i < n → j < n → T i j = T' i j) (hb : ∀ i, i < n → b i = b' i) :
    ∀ i, i < n → tsolve dv low n T b i = tsolve dv low n T' b' i := by
  intro i hi
  unfold tsolve
  cases low
  · exact lsolve_congr (n := n) (fun i j _ _ => hT _ _ (by omega) (by omega))
      (fun i _ => hb _ (by omega)) _ (by omega)
  · exact lsolve_congr hT hb i hi

end

section
variable [Field α] {dv : α → α → α}

theorem lsolve_spec (hdv : IsDiv dv) {T : Nat → Nat → α} {b : Nat → α} {n i : Nat} (hi : i < n)
    (hd : T i i ≠ 0) (ht : ∀ l, i < l → l < n → T i l = 0) :
    ∑ l ∈ range n, T i l * lsolve dv T b l = b i := by
  have h1 : ∑ l ∈ range n, T i l * lsolve dv T b l =
      ∑ l ∈ range (i + 1), T i l * lsolve dv T b l := by
    symm
    apply Finset.sum_subset
    · intro l hl; rw [Finset.mem_range] at *; omega
    · intro l hl hl'
      rw [Finset.mem_range] at *
      rw [ht l (by omega) hl, zero_mul]
  rw [h1, Finset.sum_range_succ]
  conv_lhs => rw [lsolve_eq dv T b i, hdv.eq _ _ hd]
  field_simp
  ring

/-- Substitution solves the triangular system if the diagonal has no zero. -/
theorem tsolve_spec (hdv : IsDiv dv) {low : Bool} {T : Nat → Nat → α} {b : Nat → α} {n i : Nat}
    (hi : i < n) (hd : T i i ≠ 0) (ht : ∀ l, l < n → (if low then i < l else l < i) → T i l = 0) :
    ∑ l ∈ range n, T i l * tsolve dv low n T b l = b i := by
  unfold tsolve
  cases low
  · simp only [Bool.false_eq_true, if_false] at ht ⊢
    rw [← Finset.sum_range_reflect]
    have := lsolve_spec hdv (T := fun i l => T (n - 1 - i) (n - 1 - l)) (b := fun i => b (n - 1 - i))
      (n := n) (i := n - 1 - i) (by omega) (by simpa [show n - 1 - (n - 1 - i) = i by omega] using hd)
      (fun l h1 h2 => by
        simp only [show n - 1 - (n - 1 - i) = i by omega]
        exact ht _ (by omega) (by omega))
    simp only [show n - 1 - (n - 1 - i) = i by omega] at this
    rw [← this]
    refine Finset.sum_congr rfl fun l hl => ?_
    rw [Finset.mem_range] at hl
    rw [show n - 1 - (n - 1 - l) = l by omega]
  · simp only [if_true] at ht ⊢
    exact lsolve_spec hdv hi hd (fun l h1 h2 => ht l h2 h1)

theorem lsolve_zero (hdv : IsDiv dv) {T : Nat → Nat → α} {b : Nat → α} {n : Nat}
    (hb : ∀ i, i < n → b i = 0) (hd : ∀ i, i < n → T i i ≠ 0) :
    ∀ i, i < n → lsolve dv T b i = 0 := by
  intro i
  induction i using Nat.strong_induction_on with
  | _ i ih =>
    intro hi
    rw [lsolve_eq, hb i hi, Finset.sum_eq_zero, hdv.eq _ _ (hd i hi)]
    · simp
    · intro l hl
      rw [Finset.mem_range] at hl
      rw [ih l hl (by omega), mul_zero]

theorem tsolve_zero (hdv : IsDiv dv) {low : Bool} {T : Nat → Nat → α} {b : Nat → α} {n : Nat}
    (hb : ∀ i, i < n → b i = 0) (hd : ∀ i, i < n → T i i ≠ 0) {i : Nat} (hi : i < n) :
    tsolve dv low n T b i = 0 := by
  unfold tsolve
  cases low
  · exact lsolve_zero hdv (n := n) (T := fun i l => T (n - 1 - i) (n - 1 - l))
      (b := fun i => b (n - 1 - i)) (fun i _ => hb _ (by omega)) (fun i _ => hd _ (by omega)) _ (by omega)
  · exact lsolve_zero hdv hb hd i hi

end

/-! ### Blocked substitution -/

/-- Order in which the diagonal blocks are solved: forwards, or backwards. -/
def ord (fwd : Bool) (K j : Nat) : Nat := if fwd then j else K - 1 - j

theorem ord_lt {fwd : Bool} {K j : Nat} (h : j < K) : ord fwd K j < K := by unfold ord; split <;> omega
theorem ord_ord {fwd : Bool} {K j : Nat} (h : j < K) : ord fwd K (ord fwd K j) = j := by
  unfold ord; split <;> omega
theorem ord_inj {fwd : Bool} {K j j' : Nat} (h : j < K) (h' : j' < K)
    (he : ord fwd K j = ord fwd K j') : j = j' := by
  unfold ord at he; split at he <;> omega

theorem sum_ord {β : Type v} [AddCommMonoid β] {fwd : Bool} {K : Nat} (f : Nat → β) :
    ∑ j ∈ range K, f (ord fwd K j) = ∑ j ∈ range K, f j := by
  unfold ord
  cases fwd
  · exact Finset.sum_range_reflect f K
  · rfl

/-- Sum over the rows of block `t`. -/
def bsum {β : Type v} [AddCommMonoid β] (N b t : Nat) (f : Nat → β) : β :=
  ∑ i ∈ range (tdim N b t), f (t * b + i)

theorem bsum_congr {β : Type v} [AddCommMonoid β] {N b t : Nat} {f g : Nat → β}
    (h : ∀ l, l < N → l / b = t → f l = g l) : bsum N b t f = bsum N b t g := by
  refine Finset.sum_congr rfl fun i hi => ?_
  rw [Finset.mem_range] at hi
  have h2 : i < b := lt_of_lt_of_le hi (by unfold tdim; omega)
  refine h _ (by rw [tdim_row] at hi; omega) (div_of_tile h2)

theorem sum_bsum {β : Type v} [AddCommMonoid β] {fwd : Bool} {N b : Nat} (hb : 0 < b) (f : Nat → β) :
    ∑ j ∈ range (ceilDiv N b), bsum N b (ord fwd (ceilDiv N b) j) f = ∑ l ∈ range N, f l := by
  rw [sum_ord (fun t => bsum N b t f)]
  exact sum_tiles hb f

variable [CommRing α]

/-- **Blocked substitution.**  `E k` is the right-hand side after `k` steps.  Step `k`
solves with diagonal block `ord k`, scaled by `la k`, and updates the remaining blocks
with factors `gb k` and `ga k`. -/
theorem trsm_math {fwd : Bool} {N b P : Nat} (hb : 0 < b) {T : Nat → Nat → α}
    {E : Nat → Nat → Nat → α} {la gb ga : Nat → α} {alpha : α} (h0 : la 0 = alpha)
    (h1 : ∀ k, la (k+1) * gb k = la k) (h2 : ∀ k, la (k+1) * ga k = -1)
    (hsol : ∀ k, k < ceilDiv N b → ∀ r c, r < N → c < P → r / b = ord fwd (ceilDiv N b) k →
      bsum N b (ord fwd (ceilDiv N b) k) (fun l => T r l * E (k+1) l c) = la k * E k r c)
    (hupd : ∀ k, k < ceilDiv N b → ∀ j, k < j → j < ceilDiv N b → ∀ r c, r < N → c < P →
      r / b = ord fwd (ceilDiv N b) j → E (k+1) r c = gb k * E k r c +
        ga k * bsum N b (ord fwd (ceilDiv N b) k) (fun l => T r l * E (k+1) l c))
    (hkeep : ∀ k, k < ceilDiv N b → ∀ j, j < k → ∀ r c, r < N → c < P →
      r / b = ord fwd (ceilDiv N b) j → E (k+1) r c = E k r c)
    (htri : ∀ r l, r < N → l < N → (if fwd then r < l else l < r) → T r l = 0) :
    ∀ r c, r < N → c < P → ∑ l ∈ range N, T r l * E (ceilDiv N b) l c = alpha * E 0 r c := by
  set K := ceilDiv N b with hK
  have hblk : ∀ {r}, r < N → r / b < K := fun {r} hr => by
    rw [hK, lt_ceilDiv hb]
    have := Nat.div_mul_le_self r b; omega
  -- solved blocks are final
  have hfin : ∀ j, j < K → ∀ l c, l < N → c < P → l / b = ord fwd K j → ∀ k, j < k → k ≤ K →
      E k l c = E K l c := by
    intro j hj l c hl hc hlj k hk hkK
    have key : ∀ k, j < k → k ≤ K → E k l c = E (j + 1) l c := by
      intro k hk
      induction k, hk using Nat.le_induction with
      | base => intro _; rfl
      | succ k hk ih => intro h; rw [hkeep k (by omega) j hk l c hl hc hlj, ih (by omega)]
    rw [key k hk hkK, key K hj le_rfl]
  have hinv : ∀ k, k ≤ K → ∀ r c, r < N → c < P → ∀ j, k ≤ j → j < K → r / b = ord fwd K j →
      la k * E k r c = alpha * E 0 r c -
        ∑ i ∈ range k, bsum N b (ord fwd K i) (fun l => T r l * E K l c) := by
    intro k
    induction k with
    | zero => intro _ r c _ _ j _ _ _; simp [h0]
    | succ k ih =>
      intro hk r c hr hc j hkj hj hrj
      rw [Finset.sum_range_succ, hupd k (by omega) j (by omega) hj r c hr hc hrj]
      have := ih (by omega) r c hr hc j (by omega) hj hrj
      have e : bsum N b (ord fwd K k) (fun l => T r l * E (k+1) l c) =
          bsum N b (ord fwd K k) (fun l => T r l * E K l c) :=
        bsum_congr fun l hl hlb => by
          rw [hfin k (by omega) l c hl hc hlb (k+1) (by omega) hk]
      rw [e]
      linear_combination this + (h1 k) * E k r c +
        (h2 k) * bsum N b (ord fwd K k) (fun l => T r l * E K l c)
  intro r c hr hc
  have hj := hblk hr
  set j := ord fwd K (r / b) with hjd
  have hjK : j < K := ord_lt hj
  have hrj : r / b = ord fwd K j := (ord_ord hj).symm
  have hi := hinv j hjK.le r c hr hc j le_rfl hjK hrj
  have hs := hsol j hjK r c hr hc hrj
  have e : bsum N b (ord fwd K j) (fun l => T r l * E (j+1) l c) =
      bsum N b (ord fwd K j) (fun l => T r l * E K l c) :=
    bsum_congr fun l hl hlb => by
      rw [hfin j hjK l c hl hc hlb (j+1) (by omega) hjK]
  rw [e] at hs
  rw [← sum_bsum (fwd := fwd) hb, ← hK]
  obtain ⟨d, hd⟩ := Nat.exists_eq_add_of_le (show j + 1 ≤ K from hjK)
  have hz : ∑ i ∈ range K, bsum N b (ord fwd K i) (fun l => T r l * E K l c) =
      ∑ i ∈ range (j+1), bsum N b (ord fwd K i) (fun l => T r l * E K l c) := by
    symm
    apply Finset.sum_subset
    · intro l hl; rw [Finset.mem_range] at *; omega
    · intro i hi hi'
      rw [Finset.mem_range] at *
      rw [show bsum N b (ord fwd K i) (fun l => T r l * E K l c) =
        bsum N b (ord fwd K i) (fun l => 0) from bsum_congr fun l hl hlb => ?_]
      · simp [bsum]
      · rw [htri r l hr hl, zero_mul]
        unfold ord at hlb hrj
        have a1 := Nat.div_add_mod r b
        have a2 := Nat.div_add_mod l b
        have a3 := Nat.mod_lt r hb
        have a4 := Nat.mod_lt l hb
        split
        · rename_i hf
          rw [if_pos hf] at hlb hrj
          have : b * (r / b + 1) ≤ b * (l / b) := Nat.mul_le_mul_left _ (by omega)
          rw [Nat.mul_add] at this; omega
        · rename_i hf
          rw [if_neg hf] at hlb hrj
          have : b * (l / b + 1) ≤ b * (r / b) := Nat.mul_le_mul_left _ (by omega)
          rw [Nat.mul_add] at this; omega
  rw [hz, Finset.sum_range_succ, hs, hi]
  ring

end Verif.Tile

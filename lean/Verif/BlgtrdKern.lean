/-
The kernels that build and apply a block of reflectors of the bulge chasing, and the loops over threads around them.
-/
import Verif.BlgtrdOrder

namespace Verif.Blg

open Verif.Layout Verif.Qr Verif.Sched Finset Matrix

universe v

section
variable {α : Type v} [CommRing α] [StarRing α]

/-! ### Kernels -/

/-- `op(T)` of the call of `cblas_ztrmm` (core_blas/core_zlarfb_gemm.c:161-164,191-194): `T` upper triangular, not unit, the part below the diagonal is not
read. -/
def opU (ct : Bool) (t : Nat → Nat → α) (p l : Nat) : α :=
  if ct then (if l ≤ p then star (t l p) else 0) else if p ≤ l then t p l else 0

/-- `plasma_core_zlarfb_gemm` with `PlasmaForward`, `PlasmaColumnwise` (core_blas/core_zlarfb_gemm.c:110-240), the only combination that is implemented and
called; `ct` is `trans == PlasmaConjTrans`. `WORK` holds `W`. -/
def larfbGemm (left ct : Bool) (M N K : Nat) (v t C : Nat → Nat → α) : Nat → Nat → α :=
  if M = 0 ∨ N = 0 ∨ K = 0 then C else
  if left then
    let W := fun j l => ∑ i ∈ range M, star (C i j) * v i l
    let W' := fun j l => ∑ p ∈ range K, W j p * opU (!ct) t p l
    fun i j => if i < M ∧ j < N then C i j - ∑ l ∈ range K, v i l * star (W' j l) else C i j
  else
    let W := fun i l => ∑ j ∈ range N, C i j * v j l
    let W' := fun i l => ∑ p ∈ range K, W i p * opU ct t p l
    fun i j => if i < M ∧ j < N then C i j - ∑ l ∈ range K, W' i l * star (v j l) else C i j

/-- The call on the part of `E` that starts at `E(r0, c0)` (`E(myrow,corest)`, `E(corest,myrow)`: compute/pzunmqr_blgtrd.c:351-363). `E` is a matrix here; its
leading dimension is at least the number of rows. -/
def larfbAt (left ct : Bool) (r0 c0 M N K : Nat) (v t E : Nat → Nat → α) : Nat → Nat → α := fun i j =>
  if r0 ≤ i ∧ c0 ≤ j then larfbGemm left ct M N K v t (fun a b => E (r0 + a) (c0 + b)) (i - r0) (j - c0) else E i j

/-- The reflectors as LAPACK's `zlarft` reads them, forward and columnwise: the ones and zeros are implied. -/
def unitLow (v : Nat → Nat → α) (i l : Nat) : α := if i = l then 1 else if l < i then v i l else 0

/-- LAPACK's `zlarft`, forward and columnwise: columns `0..K-1` of `T`, upper triangle only. -/
def larft (M : Nat) (v : Nat → Nat → α) (tau : Nat → α) : Nat → (Nat → Nat → α)
  | 0 => fun _ _ => 0
  | K + 1 => fun l c =>
    if c = K then
      if l < K then ∑ p ∈ range K, if l ≤ p then
        larft M v tau K l p * (-tau K * ∑ i ∈ range M, star (unitLow v i p) * unitLow v i K) else 0
      else if l = K then tau K else 0
    else larft M v tau K l c

theorem larft_lt {M : Nat} {v : Nat → Nat → α} {tau : Nat → α} {l c : Nat} : ∀ {K : Nat}, c < K → larft M v tau K l c = larft M v tau (c + 1) l c
  | 0, h => absurd h (Nat.not_lt_zero c)
  | K + 1, h => by
    rcases Nat.lt_or_ge c K with h1 | h1
    · rw [← larft_lt h1]
      conv_lhs => unfold larft
      rw [if_neg (by omega)]
    · rw [show c = K by omega]

theorem larft_diag {M : Nat} {v : Nat → Nat → α} {tau : Nat → α} {K c : Nat} (h : c < K) : larft M v tau K c c = tau c := by
  rw [larft_lt h]
  simp [larft]

theorem larft_rec {M : Nat} {v : Nat → Nat → α} {tau : Nat → α} {K c l : Nat} (h : c < K) (hl : l < c) :
    larft M v tau K l c = ∑ p ∈ range c, if l ≤ p then
      larft M v tau K l p * (-tau c * ∑ i ∈ range M, star (unitLow v i p) * unitLow v i c) else 0 := by
  rw [larft_lt h]
  conv_lhs => unfold larft
  rw [if_pos rfl, if_pos hl]
  refine sum_congr rfl fun p hp => ?_
  have hp := mem_range.mp hp
  rw [larft_lt (K := c) hp, larft_lt (K := K) (c := p) (by omega)]

/-! ### Effect of one block -/

/-- A block of reflectors as columns of length `N`. -/
def emb (r0 M : Nat) (v : Nat → Nat → α) (r l : Nat) : α := if r0 ≤ r ∧ r < r0 + M then v (r - r0) l else 0

omit [CommRing α] [StarRing α] in
theorem sum_emb {β : Type v} [AddCommMonoid β] {N r0 M : Nat} (h : r0 + M ≤ N) {f : Nat → β} :
    (∑ r : Fin N, if r0 ≤ (r : Nat) ∧ (r : Nat) < r0 + M then f (r - r0) else 0) = ∑ i ∈ range M, f i := by
  rw [Fin.sum_univ_eq_sum_range (fun r => if r0 ≤ r ∧ r < r0 + M then f (r - r0) else 0) N, ← Finset.sum_filter]
  symm
  refine Finset.sum_bij (fun i _ => r0 + i) ?_ ?_ ?_ ?_
  · intro i hi
    have := mem_range.mp hi
    simp only [mem_filter, mem_range]
    omega
  · intro a _ b _ h; omega
  · intro r hr
    simp only [mem_filter, mem_range] at hr
    exact ⟨r - r0, mem_range.mpr (by omega), by omega⟩
  · intro i _
    rw [Nat.add_sub_cancel_left]

theorem wy_vec {N r0 M K : Nat} (h : r0 + M ≤ N) {v t : Nat → Nat → α} (x : Fin N → α) (r : Fin N) :
    (wyPre N 0 (emb r0 M v) t K).mulVec x r = x r - if r0 ≤ (r : Nat) ∧ (r : Nat) < r0 + M then
      ∑ l ∈ range K, v (r - r0) l * ∑ p ∈ range K, if l ≤ p then t l p * ∑ i ∈ range M, star (v i p) * (if hi : r0 + i < N then x ⟨r0 + i, hi⟩ else 0) else 0 else 0 := by
  unfold wyPre
  rw [Matrix.sub_mulVec, Matrix.one_mulVec]
  simp only [Pi.sub_apply, Matrix.mulVec, dotProduct, Matrix.of_apply]
  congr 1
  have e0 : ∀ p, ∑ r' : Fin N, star (emb r0 M v r' p) * x r' = ∑ i ∈ range M, star (v i p) * (if hi : r0 + i < N then x ⟨r0 + i, hi⟩ else 0) := by
    intro p
    rw [← sum_emb h]
    refine sum_congr rfl fun r' _ => ?_
    unfold emb
    split_ifs with h1 h2
    · congr 2
      exact Fin.ext (by show (r' : Nat) = r0 + (r' - r0); omega)
    · exact absurd (by have := r'.2; omega) h2
    · rw [star_zero, zero_mul]
  have e1 : ∑ r' : Fin N, (∑ p ∈ range K, vt 0 (emb r0 M v) t p r * star (emb r0 M v r' (0 + p))) * x r' =
      ∑ p ∈ range K, vt 0 (emb r0 M v) t p r * ∑ i ∈ range M, star (v i p) * (if hi : r0 + i < N then x ⟨r0 + i, hi⟩ else 0) := by
    simp only [Finset.sum_mul]
    rw [Finset.sum_comm]
    refine sum_congr rfl fun p _ => ?_
    rw [← e0 p, Finset.mul_sum]
    exact sum_congr rfl fun r' _ => by rw [Nat.zero_add, mul_assoc]
  rw [e1]
  split
  · rename_i hr
    have e2 : ∀ p ∈ range K, vt 0 (emb r0 M v) t p r = ∑ l ∈ range K, if l ≤ p then v (r - r0) l * t l p else 0 := by
      intro p hp
      have hp := mem_range.mp hp
      unfold vt
      rw [← Finset.sum_filter]
      refine Finset.sum_congr (Finset.ext fun l => ?_) fun l _ => ?_
      · simp only [mem_range, mem_filter]; omega
      · rw [emb, if_pos hr, Nat.zero_add, Nat.zero_add]
    rw [sum_congr rfl fun p hp => by rw [e2 p hp]]
    obtain ⟨g, hg⟩ : ∃ g : Nat → α, ∀ p, g p = ∑ i ∈ range M, star (v i p) * (if hi : r0 + i < N then x ⟨r0 + i, hi⟩ else 0) := ⟨_, fun _ => rfl⟩
    simp only [← hg, Finset.sum_mul, Finset.mul_sum]
    rw [Finset.sum_comm]
    refine sum_congr rfl fun l _ => sum_congr rfl fun p _ => ?_
    split_ifs
    · ring
    · simp
  · rename_i hr
    refine Finset.sum_eq_zero fun p _ => ?_
    have : vt 0 (emb r0 M v) t p r = 0 := by
      unfold vt
      refine Finset.sum_eq_zero fun l _ => ?_
      rw [emb, if_neg hr, zero_mul]
    rw [this, zero_mul]

/-- The value of a column under `H`: left, not transposed. -/
theorem larfb_left {N r0 c0 M n K : Nat} (h : r0 + M ≤ N) {v t E : Nat → Nat → α} {c : Nat} (hc : c0 ≤ c ∧ c < c0 + n) (r : Fin N) :
    larfbAt true false r0 c0 M n K v t E r c = (wyPre N 0 (emb r0 M v) t K).mulVec (fun r => E r c) r := by
  rw [wy_vec h]
  unfold larfbAt larfbGemm
  by_cases hr : r0 ≤ (r : Nat)
  swap
  · rw [if_neg (by omega), if_neg (by omega), sub_zero]
  rw [if_pos ⟨hr, hc.1⟩]
  have hE : E (r0 + (r - r0)) (c0 + (c - c0)) = E r c := by
    rw [show r0 + ((r : Nat) - r0) = r by omega, show c0 + (c - c0) = c by omega]
  split
  · rename_i h0
    dsimp only
    rw [hE]
    by_cases hK : K = 0
    · subst hK; simp
    · rw [if_neg (by omega), sub_zero]
  · rename_i h0
    simp only [if_true]
    by_cases hrM : (r : Nat) < r0 + M
    swap
    · rw [if_neg (by omega), if_neg (by omega), hE, sub_zero]
    rw [if_pos ⟨by omega, by omega⟩, if_pos ⟨hr, hrM⟩, hE]
    congr 1
    refine sum_congr rfl fun l _ => ?_
    congr 1
    rw [star_sum]
    refine sum_congr rfl fun p _ => ?_
    simp only [opU, Bool.not_false, if_true]
    split_ifs
    · rw [star_mul, star_star, star_sum]
      congr 1
      refine sum_congr rfl fun i hi => ?_
      have := mem_range.mp hi
      rw [dif_pos (by omega), star_mul, star_star, show c0 + (c - c0) = c by omega]
    · simp

/-- The value of a row under `H^H` from the right. -/
theorem larfb_right {N r0 c0 M n K : Nat} (h : r0 + M ≤ N) {v t E : Nat → Nat → α} {c : Nat} (hc : c0 ≤ c ∧ c < c0 + n) (r : Fin N) :
    star (larfbAt false true c0 r0 n M K v t E c r) = (wyPre N 0 (emb r0 M v) t K).mulVec (fun r => star (E c r)) r := by
  rw [wy_vec h]
  unfold larfbAt larfbGemm
  by_cases hr : r0 ≤ (r : Nat)
  swap
  · rw [if_neg (by omega), if_neg (by omega), sub_zero]
  rw [if_pos ⟨hc.1, hr⟩]
  have hE : E (c0 + (c - c0)) (r0 + (r - r0)) = E c r := by
    rw [show r0 + ((r : Nat) - r0) = r by omega, show c0 + (c - c0) = c by omega]
  split
  · rename_i h0
    dsimp only
    rw [hE]
    by_cases hK : K = 0
    · subst hK; simp
    · rw [if_neg (by omega), sub_zero]
  · rename_i h0
    simp only [Bool.false_eq_true, if_false]
    by_cases hrM : (r : Nat) < r0 + M
    swap
    · rw [if_neg (by omega), if_neg (by omega), hE, sub_zero]
    rw [if_pos ⟨by omega, by omega⟩, if_pos ⟨hr, hrM⟩, hE, star_sub]
    congr 1
    rw [star_sum]
    refine sum_congr rfl fun l _ => ?_
    rw [star_mul, star_star]
    congr 1
    rw [star_sum]
    refine sum_congr rfl fun p _ => ?_
    simp only [opU, if_true]
    split_ifs
    · rw [star_mul, star_star, star_sum]
      congr 1
      refine sum_congr rfl fun i hi => ?_
      have := mem_range.mp hi
      rw [dif_pos (by omega), star_mul, show c0 + (c - c0) = c by omega]
    · simp

end
end Verif.Blg

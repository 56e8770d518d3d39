/-
Mathematics for the factorization of Aasen: the binary tree, the kernel zhegst, block tridiagonal products.
-/
import Verif.Aasen
import Mathlib.Tactic.Abel

namespace Verif.Aasen

open Verif.Tile Verif.Layout Verif.LU Verif.Panel Verif.Heswp Finset

set_option linter.unusedSectionVars false

universe v w

/-! ### Tree -/

section
variable {β : Type v} [AddCommMonoid β]

/-- Add entry `p.2` to entry `p.1`. -/
def estep (e : Nat → β) (p : Nat × Nat) : Nat → β := Function.update e p.1 (e p.2 + e p.1)

theorem round_eff {d : Nat} (hd : 0 < d) (c : Nat) (e : Nat → β) (x : Nat) :
    ((List.range c).map (fun br => (2 * d * br, 2 * d * br + 2 * d / 2))).foldl estep e x =
      if x % (2 * d) = 0 ∧ x / (2 * d) < c then e (x + d) + e x else e x := by
  have h2 : 2 * d / 2 = d := by omega
  induction c generalizing x with
  | zero => simp
  | succ c ih =>
    rw [List.range_succ, List.map_append, List.foldl_append]
    simp only [List.map_cons, List.map_nil, List.foldl_cons, List.foldl_nil]
    unfold estep at ih ⊢
    have e1 : (2 * d * c) % (2 * d) = 0 := Nat.mul_mod_right _ _
    have e2 : (2 * d * c) / (2 * d) = c := Nat.mul_div_cancel_left _ (by omega)
    have e3 : (2 * d * c + d) % (2 * d) = d := by
      rw [Nat.mul_add_mod]; exact Nat.mod_eq_of_lt (by omega)
    by_cases hx : x = 2 * d * c
    · subst hx
      rw [Function.update_self]
      rw [ih, ih]
      simp only [h2]
      rw [if_neg (by rw [e3]; omega), if_neg (by rw [e2]; omega), if_pos ⟨e1, by rw [e2]; omega⟩]
    · rw [Function.update_of_ne hx, ih]
      have : x % (2 * d) = 0 ∧ x / (2 * d) < c + 1 ↔ x % (2 * d) = 0 ∧ x / (2 * d) < c := by
        constructor
        · rintro ⟨a1, a2⟩
          refine ⟨a1, ?_⟩
          by_contra hc
          have : x / (2 * d) = c := by omega
          exact hx (by rw [← Nat.div_add_mod x (2 * d), a1, this, Nat.add_zero])
        · rintro ⟨a1, a2⟩; exact ⟨a1, by omega⟩
      simp only [this]

theorem pair_sum (p : Nat) (f : Nat → β) :
    ∑ q ∈ range ((p + 1) / 2), (if q < p / 2 then f (2 * q + 1) + f (2 * q) else f (2 * q)) = ∑ q ∈ range p, f q := by
  induction p using Nat.twoStepInduction with
  | zero => simp
  | one => simp
  | more p ih _ =>
    rw [show (p + 2 + 1) / 2 = (p + 1) / 2 + 1 by omega, show (p + 2) / 2 = p / 2 + 1 by omega, sum_range_succ, sum_range_succ,
      sum_range_succ, ← ih]
    rcases Nat.even_or_odd' p with ⟨c, rfl | rfl⟩
    · rw [show (2 * c + 1) / 2 = c by omega, show 2 * c / 2 = c by omega, if_pos (by omega)]
      rw [add_assoc, add_comm (f (2 * c + 1))]
      congr 1
      refine sum_congr rfl fun q hq => ?_
      rw [mem_range] at hq
      rw [if_pos (by omega), if_pos (by omega)]
    · rw [show (2 * c + 1 + 1) / 2 = c + 1 by omega, show (2 * c + 1) / 2 = c by omega, sum_range_succ, sum_range_succ,
        if_pos (by omega), if_neg (by omega), if_neg (by omega)]
      rw [show 2 * (c + 1) = 2 * c + 1 + 1 by omega]
      have : ∑ q ∈ range c, (if q < c + 1 then f (2 * q + 1) + f (2 * q) else f (2 * q)) =
          ∑ q ∈ range c, (if q < c then f (2 * q + 1) + f (2 * q) else f (2 * q)) := by
        refine sum_congr rfl fun q hq => ?_
        rw [mem_range] at hq
        rw [if_pos (by omega), if_pos (by omega)]
      rw [this]
      abel

/-- The binary tree adds up all entries, whatever the number of rounds from the logarithm on. -/
theorem tree_sum {R p d : Nat} (hp : 0 < p) (hR : p ≤ 2 ^ R) (hd : 0 < d) (e : Nat → β) :
    (treePairs R p (2 * d)).foldl estep e 0 = ∑ q ∈ range p, e (q * d) := by
  induction R generalizing p d e with
  | zero =>
    have : p = 1 := by simp at hR; omega
    subst this
    simp [treePairs]
  | succ R ih =>
    unfold treePairs
    rw [List.foldl_append, ih (by omega) (by rw [Nat.pow_succ] at hR; omega) (by omega), ← pair_sum p]
    refine sum_congr rfl fun q hq => ?_
    rw [mem_range] at hq
    rw [round_eff hd, Nat.mul_mod_left, Nat.mul_div_cancel _ (by omega)]
    simp only [true_and]
    split_ifs
    · rw [show q * (2 * d) + d = (2 * q + 1) * d by ring, show q * (2 * d) = 2 * q * d by ring]
    · rw [show q * (2 * d) = 2 * q * d by ring]

theorem tree_fold {p : Nat} (hp : 0 < p) (e : Nat → β) : (tree p).foldl estep e 0 = ∑ q ∈ range p, e q := by
  unfold tree
  rw [show (2 : Nat) = 2 * 1 from rfl, tree_sum hp (Nat.le_pow_clog (by omega) _) (by omega)]
  simp

end

/-! ### zhegst -/

section
variable {α : Type v} [Field α] [StarRing α] [DecidableEq α]

theorem unitri_inj {n : Nat} {L : Nat → Nat → α} (h1 : ∀ i, i < n → L i i = 1) (h0 : ∀ i j, i < j → j < n → L i j = 0) {x : Nat → α}
    (h : ∀ i, i < n → ∑ u ∈ range n, L i u * x u = 0) : ∀ u, u < n → x u = 0 := by
  intro u
  induction u using Nat.strong_induction_on with
  | _ u ih =>
    intro hu
    have := h u hu
    rw [sum_eq_single u] at this
    · rwa [h1 u hu, one_mul] at this
    · intro v hv hne
      rw [mem_range] at hv
      rcases Nat.lt_or_gt_of_ne hne with h2 | h2
      · rw [ih v h2 hv, mul_zero]
      · rw [h0 u v h2 hv, zero_mul]
    · intro hh; exact absurd (mem_range.mpr hu) hh

theorem hegst_spec {dv : α → α → α} (hdv : IsDiv dv) {n : Nat} {A B : Tl α} (hA : ∀ i, i < n → star (A i i) = A i i) :
    (∀ i j, i < n → j < n → star (expandK n (hegstK dv n A B) i j) = expandK n (hegstK dv n A B) j i) ∧
    ∀ i j, i < n → j < n → ∑ u ∈ range n, trE .lower .unit B i u *
      ∑ v ∈ range n, expandK n (hegstK dv n A B) u v * star (trE .lower .unit B j v) = herm A i j := by
  have hL1 : ∀ i, trE .lower .unit B i i = 1 := fun i => by simp [trE]
  have hL0 : ∀ i j, i < j → trE .lower .unit B i j = 0 := fun i j h => by
    unfold trE; rw [if_neg (by omega), if_neg (by simp [inTri]; omega)]
  obtain ⟨Y, hY⟩ : ∃ Y, Y = trsmK dv .left .lower .noTrans .unit n n 1 B (herm A) := ⟨_, rfl⟩
  obtain ⟨Z, hZ⟩ : ∃ Z, Z = trsmK dv .right .lower .conjTrans .unit n n 1 B Y := ⟨_, rfl⟩
  have sY : ∀ r c, r < n → ∑ l ∈ range n, trE .lower .unit B r l * Y l c = herm A r c := by
    intro r c hr
    have := trsmK_spec hdv (sd := .left) (u := .lower) (t := .noTrans) (d := .unit) (m := n) (n := n) (alpha := 1) one_ne_zero
      (X := B) (Y := herm A) (fun i _ => by rw [hL1]; exact one_ne_zero) (r := r) (c := c) hr
    simp only [trN, trT, trEl, opE, if_true, one_mul] at this
    rw [hY]; exact this
  have sZ : ∀ c r, r < n → ∑ l ∈ range n, Z c l * star (trE .lower .unit B r l) = Y c r := by
    intro c r hr
    have := trsmK_spec hdv (sd := .right) (u := .lower) (t := .conjTrans) (d := .unit) (m := n) (n := n) (alpha := 1) one_ne_zero
      (X := B) (Y := Y) (fun i _ => by rw [hL1]; exact one_ne_zero) (r := r) (c := c) hr
    simp only [trN, trT, trEl, opE, reduceCtorEq, if_false, one_mul] at this
    rw [hZ, ← this]
    exact sum_congr rfl fun l _ => mul_comm _ _
  have sA : ∀ i j, i < n → j < n → ∑ u ∈ range n, trE .lower .unit B i u * ∑ v ∈ range n, Z u v * star (trE .lower .unit B j v) = herm A i j := by
    intro i j hi hj
    rw [← sY i j hi]
    exact sum_congr rfl fun u _ => by rw [sZ u j hj]
  have hh : ∀ i j, i < n → j < n → star (herm A j i) = herm A i j := by
    intro i j hi hj
    unfold herm
    rcases Nat.lt_trichotomy i j with h | h | h
    · rw [if_pos (by omega), if_neg (by omega)]
    · subst h; rw [if_pos (le_refl _)]; exact hA i hi
    · rw [if_neg (by omega), if_pos (by omega), star_star]
  have hD : ∀ u v, u < n → v < n → Z u v = star (Z v u) := by
    have k1 : ∀ j, j < n → ∀ u, u < n → ∑ v ∈ range n, (Z u v - star (Z v u)) * star (trE .lower .unit B j v) = 0 := by
      intro j hj
      refine unitri_inj (fun i _ => hL1 i) (fun i j h _ => hL0 i j h) fun i hi => ?_
      have e1 := sA i j hi hj
      have e2 : ∑ u ∈ range n, trE .lower .unit B i u * ∑ v ∈ range n, star (Z v u) * star (trE .lower .unit B j v) = herm A i j := by
        rw [← hh i j hi hj, ← sA j i hj hi, star_sum]
        simp_rw [star_mul', star_sum, star_mul', star_star, mul_sum]
        rw [sum_comm]
        refine sum_congr rfl fun u _ => sum_congr rfl fun v _ => ?_
        ring
      have e3 := sub_eq_zero.mpr (e1.trans e2.symm)
      rw [← sum_sub_distrib] at e3
      rw [← e3]
      refine sum_congr rfl fun u _ => ?_
      rw [← mul_sub, ← sum_sub_distrib]
      congr 1
      exact sum_congr rfl fun v _ => sub_mul _ _ _
    intro u v hu hv
    have k2 := unitri_inj (n := n) (L := trE .lower .unit B) (fun i _ => hL1 i) (fun i j h _ => hL0 i j h)
      (x := fun v => star (Z u v - star (Z v u))) (fun j hj => by
        have := congrArg star (k1 j hj u hu)
        rw [star_sum, star_zero] at this
        rw [← this]
        exact sum_congr rfl fun v _ => by rw [star_mul', star_star, mul_comm]) v hv
    exact sub_eq_zero.mp (star_eq_zero.mp k2)
  have hE : ∀ i j, i < n → j < n → expandK n (hegstK dv n A B) i j = Z i j := by
    intro i j hi hj
    unfold expandK hegstK
    rw [← hY, ← hZ]
    by_cases h : i ≤ j
    · rw [if_pos ⟨h, hj⟩, if_pos ⟨h, hj⟩, ← hD i j hi hj]
    · rw [if_neg (fun hh => h hh.1), if_pos ⟨by omega, hi⟩]
  constructor
  · intro i j hi hj
    rw [hE i j hi hj, hE j i hj hi, hD j i hj hi]
  · intro i j hi hj
    rw [← sA i j hi hj]
    refine sum_congr rfl fun u hu => ?_
    rw [mem_range] at hu
    congr 1
    refine sum_congr rfl fun v hv => ?_
    rw [mem_range] at hv
    rw [hE u v hu hv]

end

/-! ### The factors -/

section
variable {α : Type v} [CommRing α] [StarRing α]

/-- Entry `(r,g)` of the factor `L`: the first block column is the identity, block column `n` is stored in block column `n-1` of
`A` (compute/pzhetrf_aasen.c:23). -/
def Lf (b : Nat) (X : Nat → Nat → α) (r g : Nat) : α :=
  if g < b then (if r = g then 1 else 0) else if r < g / b * b then 0 else X r (g - b)

/-- Entry `(r,c)` of the block tridiagonal Hermitian matrix whose blocks on and below the diagonal are given. -/
def Tf (b : Nat) (t : Nat → Nat → Tl α) (r c : Nat) : α :=
  if r / b = c / b ∨ r / b = c / b + 1 then t (r / b) (c / b) (r % b) (c % b)
  else if c / b = r / b + 1 then star (t (c / b) (r / b) (c % b) (r % b)) else 0

/-- Entry of `T*L^H`. -/
def Hf (N b : Nat) (X : Nat → Nat → α) (t : Nat → Nat → Tl α) (g c : Nat) : α := ∑ h ∈ range N, Tf b t g h * star (Lf b X c h)

theorem sum_tri3 {F : Nat → α} {M m : Nat} (hm : m < M) (h0 : ∀ p, p < M → p + 1 ≠ m → p ≠ m → p ≠ m + 1 → F p = 0) :
    ∑ p ∈ range M, F p = (if 0 < m then F (m - 1) else 0) + F m + (if m + 1 < M then F (m + 1) else 0) := by
  have hs : ∑ p ∈ range M, F p = ∑ p ∈ range M, ((if p + 1 = m then F (m - 1) else 0) + (if p = m then F m else 0) +
      (if p = m + 1 then F (m + 1) else 0)) := by
    refine sum_congr rfl fun p hp => ?_
    rw [mem_range] at hp
    by_cases h1 : p + 1 = m
    · rw [if_pos h1, if_neg (by omega), if_neg (by omega), add_zero, add_zero, ← h1, Nat.add_sub_cancel]
    · by_cases h2 : p = m
      · subst h2; simp
      · by_cases h3 : p = m + 1
        · subst h3; rw [if_neg h1, if_neg h2, if_pos rfl, zero_add, zero_add]
        · rw [h0 p hp h1 h2 h3, if_neg h1, if_neg h2, if_neg h3, add_zero, add_zero]
  rw [hs, sum_add_distrib, sum_add_distrib]
  congr 1
  · congr 1
    · by_cases h : 0 < m
      · rw [if_pos h, sum_eq_single (m - 1), if_pos (by omega)]
        · intro p _ hp; rw [if_neg (by omega)]
        · intro hh; exact absurd (mem_range.mpr (by omega)) hh
      · rw [if_neg h]; exact sum_eq_zero fun p _ => if_neg (by omega)
    · rw [sum_ite_eq' (range M) m, if_pos (mem_range.mpr hm)]
  · rw [sum_ite_eq' (range M) (m + 1)]
    simp only [mem_range]

theorem Tf_tile {b : Nat} {t : Nat → Nat → Tl α} {m p l u : Nat} (hl : l < b) (hu : u < b) :
    Tf b t (m * b + l) (p * b + u) = if m = p ∨ m = p + 1 then t m p l u else if p = m + 1 then star (t p m u l) else 0 := by
  unfold Tf
  rw [div_of_tile hl, div_of_tile hu, mod_of_tile hl, mod_of_tile hu]

theorem Hf_block {N b : Nat} (hb : 0 < b) {X : Nat → Nat → α} {t : Nat → Nat → Tl α} {m l : Nat} (hl : l < b) (hg : m * b + l < N)
    (c : Nat) : Hf N b X t (m * b + l) c =
      (if 0 < m then ∑ u ∈ range b, t m (m - 1) l u * star (Lf b X c ((m - 1) * b + u)) else 0) +
      ∑ u ∈ range (tdim N b m), t m m l u * star (Lf b X c (m * b + u)) +
      ∑ u ∈ range (tdim N b (m + 1)), star (t (m + 1) m u l) * star (Lf b X c ((m + 1) * b + u)) := by
  unfold Hf
  rw [← sum_tiles hb (fun h => Tf b t (m * b + l) h * star (Lf b X c h))]
  have hm : m < ceilDiv N b := (lt_ceilDiv hb).mpr (by omega)
  have hlt : ∀ p u, u < tdim N b p → u < b := fun p u hu => (tdim_row.mp hu).1
  rw [sum_tri3 hm (F := fun p => ∑ u ∈ range (tdim N b p), Tf b t (m * b + l) (p * b + u) * star (Lf b X c (p * b + u)))]
  · congr 1
    · congr 1
      · by_cases h : 0 < m
        · rw [if_pos h, if_pos h]
          have e : tdim N b (m - 1) = b := by
            have : (m - 1) * b + b = m * b := by rw [← Nat.succ_mul]; congr 1; omega
            unfold tdim; omega
          rw [e]
          refine sum_congr rfl fun u hu => ?_
          rw [Tf_tile hl (mem_range.mp hu), if_pos (Or.inr (by omega))]
        · rw [if_neg h, if_neg h]
      · refine sum_congr rfl fun u hu => ?_
        rw [Tf_tile hl (hlt _ _ (mem_range.mp hu)), if_pos (Or.inl rfl)]
    · by_cases h : m + 1 < ceilDiv N b
      · rw [if_pos h]
        refine sum_congr rfl fun u hu => ?_
        rw [Tf_tile hl (hlt _ _ (mem_range.mp hu)), if_neg (by omega), if_pos rfl]
      · rw [if_neg h]
        have e : tdim N b (m + 1) = 0 := by
          rw [lt_ceilDiv hb] at h
          unfold tdim; omega
        rw [e, range_zero, sum_empty]
  · intro p _ h1 h2 h3
    refine sum_eq_zero fun u hu => ?_
    rw [Tf_tile hl (hlt _ _ (mem_range.mp hu)), if_neg (by omega), if_neg (by omega), zero_mul]

theorem Lf_zero {b : Nat} {X : Nat → Nat → α} {r g : Nat} (h : r < g / b * b) : Lf b X r g = 0 := by
  unfold Lf
  have := Nat.div_mul_le_self g b
  by_cases hg : g < b
  · rw [if_pos hg, if_neg (by omega)]
  · rw [if_neg hg, if_pos h]

end

end Verif.Aasen

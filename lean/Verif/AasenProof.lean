/-
The invariant of `plasma_pzhetrf_aasen`.
-/
import Verif.AasenLow

namespace Verif.Aasen

open Verif.Tile Verif.Layout Verif.LU Verif.Panel Verif.Heswp Finset

set_option linter.unusedSectionVars false

universe v w

section
variable {α : Type v} [Field α] [StarRing α] [DecidableEq α] {γ : Type w} [LinearOrder γ]
variable {z : AC} {dv : α → α → α} {mag : α → γ} {big : α → Bool} {k : Nat} {b N : Nat}

/-! ### The factors -/

theorem Lf_row {X X' : Nat → Nat → α} {r : Nat} (h : ∀ c, X r c = X' r c) (g : Nat) : Lf b X r g = Lf b X' r g := by
  unfold Lf; rw [h]

theorem Tf_eq {t t' : Nat → Nat → Tl α} {g h : Nat}
    (H : ∀ m n, (m = g / b ∧ n = h / b ∨ m = h / b ∧ n = g / b) → (m = n ∨ m = n + 1) → t m n = t' m n) : Tf b t g h = Tf b t' g h := by
  unfold Tf
  by_cases h1 : g / b = h / b ∨ g / b = h / b + 1
  · rw [if_pos h1, if_pos h1, H _ _ (Or.inl ⟨rfl, rfl⟩) h1]
  · rw [if_neg h1, if_neg h1]
    by_cases h2 : h / b = g / b + 1
    · rw [if_pos h2, if_pos h2, H _ _ (Or.inr ⟨rfl, rfl⟩) (Or.inr h2)]
    · rw [if_neg h2, if_neg h2]

theorem div_lt_zero {X : Nat → Nat → α} {r g : Nat} (hb : 0 < b) (h : r / b < g / b) : Lf b X r g = 0 := by
  refine Lf_zero ?_
  rw [Nat.div_lt_iff_lt_mul hb] at h
  exact h

theorem Hf_congr (hb : 0 < b) {X X' : Nat → Nat → α} {t t' : Nat → Nat → Tl α} {g c : Nat} (hX : ∀ j, X c j = X' c j)
    (hT : ∀ h, h / b ≤ c / b → Tf b t g h = Tf b t' g h) : Hf N b X t g c = Hf N b X' t' g c := by
  unfold Hf
  refine sum_congr rfl fun h _ => ?_
  rw [Lf_row hX]
  by_cases hh : h / b ≤ c / b
  · rw [hT h hh]
  · rw [div_lt_zero hb (by omega), star_zero, mul_zero, mul_zero]

theorem Hf_far (hb : 0 < b) {X : Nat → Nat → α} {t : Nat → Nat → Tl α} {g c : Nat} (h : c / b + 1 < g / b) : Hf N b X t g c = 0 := by
  unfold Hf
  refine sum_eq_zero fun h' _ => ?_
  by_cases hh : h' / b ≤ c / b
  · unfold Tf
    rw [if_neg (by omega), if_neg (by omega), zero_mul]
  · rw [div_lt_zero hb (by omega), star_zero, mul_zero]

theorem Tf_herm (hb : 0 < b) {t : Nat → Nat → Tl α} (ht : ∀ m i j, i < tdim N b m → j < tdim N b m → star (t m m i j) = t m m j i) {g h : Nat}
    (hg : g < N) (hh : h < N) : star (Tf b t g h) = Tf b t h g := by
  have hd : ∀ x, x < N → x % b < tdim N b (x / b) := fun x hx =>
    tdim_row.mpr ⟨Nat.mod_lt _ hb, by rw [dm]; exact hx⟩
  unfold Tf
  by_cases h1 : g / b = h / b
  · rw [if_pos (Or.inl h1), if_pos (Or.inl h1.symm), ← h1]
    exact ht _ _ _ (hd g hg) (by rw [h1]; exact hd h hh)
  · by_cases h2 : g / b = h / b + 1
    · rw [if_pos (Or.inr h2), if_neg (by omega), if_pos h2]
    · rw [if_neg (by omega)]
      by_cases h3 : h / b = g / b + 1
      · rw [if_pos h3, if_pos (Or.inr h3), star_star]
      · rw [if_neg h3, if_neg (by omega), if_neg h2, star_zero]

theorem E_herm {X : Nat → Nat → α} {t : Nat → Nat → Tl α} (hT : ∀ g h, g < N → h < N → star (Tf b t g h) = Tf b t h g) (r c : Nat) :
    star (∑ g ∈ range N, Lf b X r g * Hf N b X t g c) = ∑ g ∈ range N, Lf b X c g * Hf N b X t g r := by
  unfold Hf
  simp_rw [star_sum, star_mul', star_sum, star_mul', star_star, mul_sum]
  rw [sum_comm]
  refine sum_congr rfl fun g hg => sum_congr rfl fun h hh => ?_
  rw [hT h g (mem_range.mp hh) (mem_range.mp hg)]
  ring

/-- Row and column in block `k`. -/
theorem E_diag (hz : z.OK) (hk : k < z.mt) {X : Nat → Nat → α} {t : Nat → Nat → Tl α} {i j : Nat} (hi : i < z.mv k) (hj : j < z.mv k) :
    ∑ g ∈ range z.N, Lf z.b X (k * z.b + i) g * Hf z.N z.b X t g (k * z.b + j) =
      ∑ m ∈ range (k - 1), ∑ l ∈ range (z.mv (m + 1)), X (k * z.b + i) (m * z.b + l) * Hf z.N z.b X t ((m + 1) * z.b + l) (k * z.b + j) +
      (if 1 < k then ∑ u ∈ range z.b, (∑ v ∈ range (z.mv k), X (k * z.b + i) ((k - 1) * z.b + v) * t k (k - 1) v u) *
        star (X (k * z.b + j) ((k - 1 - 1) * z.b + u)) else 0) +
      ∑ u ∈ range (z.mv k), Lf z.b X (k * z.b + i) (k * z.b + u) * ∑ v ∈ range (z.mv k), t k k u v * star (Lf z.b X (k * z.b + j) (k * z.b + v)) := by
  have hb := hz.b
  have hmk := hz.mv hk
  rw [hmk, tdim_row] at hi hj
  rw [← sum_tiles hb (fun g => Lf z.b X (k * z.b + i) g * Hf z.N z.b X t g (k * z.b + j))]
  have h1 : ∑ m ∈ range (ceilDiv z.N z.b), ∑ l ∈ range (tdim z.N z.b m), Lf z.b X (k * z.b + i) (m * z.b + l) * Hf z.N z.b X t (m * z.b + l) (k * z.b + j) =
      ∑ m ∈ range (k + 1), ∑ l ∈ range (tdim z.N z.b m), Lf z.b X (k * z.b + i) (m * z.b + l) * Hf z.N z.b X t (m * z.b + l) (k * z.b + j) := by
    symm
    refine sum_subset ?_ ?_
    · intro x hx
      rw [mem_range] at hx ⊢
      have : k < ceilDiv z.N z.b := hk
      omega
    · intro m _ hm
      rw [mem_range] at hm
      refine sum_eq_zero fun l hl => ?_
      rw [mem_range, tdim_row] at hl
      rw [div_lt_zero hb (by rw [div_of_tile hi.1, div_of_tile hl.1]; omega), zero_mul]
  rw [h1, sum_range_succ]
  have h2 : ∑ m ∈ range k, ∑ l ∈ range (tdim z.N z.b m), Lf z.b X (k * z.b + i) (m * z.b + l) * Hf z.N z.b X t (m * z.b + l) (k * z.b + j) =
      ∑ m ∈ range (k - 1), ∑ l ∈ range (z.mv (m + 1)), X (k * z.b + i) (m * z.b + l) * Hf z.N z.b X t ((m + 1) * z.b + l) (k * z.b + j) := by
    cases k with
    | zero => simp
    | succ k' =>
      rw [Nat.add_sub_cancel, sum_range_succ']
      have : ∑ l ∈ range (tdim z.N z.b 0), Lf z.b X ((k' + 1) * z.b + i) (0 * z.b + l) * Hf z.N z.b X t (0 * z.b + l) ((k' + 1) * z.b + j) = 0 := by
        refine sum_eq_zero fun l hl => ?_
        rw [mem_range, tdim_row] at hl
        have e : (k' + 1) * z.b = k' * z.b + z.b := Nat.succ_mul _ _
        rw [Nat.zero_mul, Nat.zero_add, Lf_first hb (by omega) hl.1, zero_mul]
      rw [this, add_zero]
      refine sum_congr rfl fun m hm => ?_
      rw [mem_range] at hm
      rw [hz.mv (by omega)]
      refine sum_congr rfl fun l hl => ?_
      rw [mem_range, tdim_row] at hl
      rw [← tl_Lf hb (by omega) (by omega) hl.1, Nat.add_sub_cancel]
      rfl
  rw [h2, add_assoc]
  congr 1
  have h3 : ∀ l, l < tdim z.N z.b k → Hf z.N z.b X t (k * z.b + l) (k * z.b + j) =
      (if 0 < k then ∑ u ∈ range z.b, t k (k - 1) l u * star (Lf z.b X (k * z.b + j) ((k - 1) * z.b + u)) else 0) +
      ∑ v ∈ range (tdim z.N z.b k), t k k l v * star (Lf z.b X (k * z.b + j) (k * z.b + v)) := by
    intro l hl
    rw [tdim_row] at hl
    rw [Hf_block hb hl.1 hl.2]
    have : ∑ u ∈ range (tdim z.N z.b (k + 1)), star (t (k + 1) k u l) * star (Lf z.b X (k * z.b + j) ((k + 1) * z.b + u)) = 0 := by
      refine sum_eq_zero fun u hu => ?_
      rw [mem_range, tdim_row] at hu
      rw [div_lt_zero hb (by rw [div_of_tile hj.1, div_of_tile hu.1]; omega), star_zero, mul_zero]
    rw [this, add_zero]
  rw [sum_congr rfl fun l hl => by rw [h3 l (mem_range.mp hl), mul_add], sum_add_distrib, hmk]
  congr 1
  by_cases h4 : 1 < k
  · rw [if_pos h4]
    simp only [if_pos (show 0 < k by omega), mul_sum]
    simp only [sum_mul]
    rw [sum_comm]
    refine sum_congr rfl fun u hu => sum_congr rfl fun v hv => ?_
    rw [mem_range] at hu
    rw [mem_range, tdim_row] at hv
    rw [← tl_Lf hb (show 0 < k by omega) (le_refl _) hv.1, ← tl_Lf hb (show 0 < k - 1 by omega) (by omega) hu]
    unfold tl
    ring
  · rw [if_neg h4]
    refine sum_eq_zero fun l _ => ?_
    by_cases h5 : 0 < k
    · have e : k = 1 := by omega
      subst e
      rw [if_pos h5, sum_eq_zero, mul_zero]
      intro u hu
      rw [mem_range] at hu
      rw [Nat.sub_self, Nat.zero_mul, Nat.zero_add, Lf_first hb (by omega) hu, star_zero, mul_zero]
    · rw [if_neg h5, mul_zero]

/-- Row below block `k`, column in block `k`. -/
theorem E_off (hz : z.OK) (hk : k + 1 < z.mt) {X : Nat → Nat → α} {t : Nat → Nat → Tl α} {r j : Nat} (hr : (k + 1) * z.b ≤ r) (hj : j < z.b) :
    ∑ g ∈ range z.N, Lf z.b X r g * Hf z.N z.b X t g (k * z.b + j) =
      ∑ m ∈ range k, ∑ l ∈ range (z.mv (m + 1)), X r (m * z.b + l) * Hf z.N z.b X t ((m + 1) * z.b + l) (k * z.b + j) +
      ∑ l ∈ range (z.mv (k + 1)), X r (k * z.b + l) * ∑ u ∈ range z.b, t (k + 1) k l u * star (Lf z.b X (k * z.b + j) (k * z.b + u)) := by
  have hb := hz.b
  have hmk := hz.mv hk
  rw [← sum_tiles hb (fun g => Lf z.b X r g * Hf z.N z.b X t g (k * z.b + j))]
  have h1 : ∑ m ∈ range (ceilDiv z.N z.b), ∑ l ∈ range (tdim z.N z.b m), Lf z.b X r (m * z.b + l) * Hf z.N z.b X t (m * z.b + l) (k * z.b + j) =
      ∑ m ∈ range (k + 1 + 1), ∑ l ∈ range (tdim z.N z.b m), Lf z.b X r (m * z.b + l) * Hf z.N z.b X t (m * z.b + l) (k * z.b + j) := by
    symm
    refine sum_subset ?_ ?_
    · intro x hx
      rw [mem_range] at hx ⊢
      have : k + 1 < ceilDiv z.N z.b := hk
      omega
    · intro m _ hm
      rw [mem_range] at hm
      refine sum_eq_zero fun l hl => ?_
      rw [mem_range, tdim_row] at hl
      rw [Hf_far hb (by rw [div_of_tile hj, div_of_tile hl.1]; omega), mul_zero]
  have hLr : ∀ m l, m ≤ k → l < z.b → Lf z.b X r ((m + 1) * z.b + l) = X r (m * z.b + l) := by
    intro m l hm hl
    have e : (m + 1) * z.b ≤ (k + 1) * z.b := Nat.mul_le_mul_right _ (by omega)
    have e2 : (m + 1) * z.b = m * z.b + z.b := Nat.succ_mul _ _
    unfold Lf
    rw [div_of_tile hl, if_neg (by omega), if_neg (by omega)]
    congr 1
    omega
  rw [h1, sum_range_succ', show ∑ l ∈ range (tdim z.N z.b 0), Lf z.b X r (0 * z.b + l) * Hf z.N z.b X t (0 * z.b + l) (k * z.b + j) = 0 from by
    refine sum_eq_zero fun l hl => ?_
    rw [mem_range, tdim_row] at hl
    have e : (k + 1) * z.b = k * z.b + z.b := Nat.succ_mul _ _
    rw [Nat.zero_mul, Nat.zero_add, Lf_first hb (by omega) hl.1, zero_mul], add_zero, sum_range_succ]
  congr 1
  · refine sum_congr rfl fun m hm => ?_
    rw [mem_range] at hm
    rw [hz.mv (by omega)]
    refine sum_congr rfl fun l hl => ?_
    rw [mem_range, tdim_row] at hl
    rw [hLr m l (by omega) hl.1]
  · rw [hmk]
    refine sum_congr rfl fun l hl => ?_
    rw [mem_range, tdim_row] at hl
    rw [hLr k l (le_refl _) hl.1, Hf_block hb hl.1 hl.2, if_pos (Nat.succ_pos _), Nat.add_sub_cancel]
    congr 1
    rw [add_assoc, add_eq_left]
    rw [sum_eq_zero, sum_eq_zero, add_zero]
    · intro u hu
      rw [mem_range, tdim_row] at hu
      rw [div_lt_zero hb (by rw [div_of_tile hj, div_of_tile hu.1]; omega), star_zero, mul_zero]
    · intro u hu
      rw [mem_range, tdim_row] at hu
      rw [div_lt_zero hb (by rw [div_of_tile hj, div_of_tile hu.1]; omega), star_zero, mul_zero]

/-! ### Invariant -/

/-- The interchanges of the first `k` panels: the first tile row is not touched. -/
def sg (z : AC) (k : Nat) (piv : Nat → Nat) : Equiv.Perm Nat := perm (fun i => piv i - 1) z.b (min z.N ((k + 1) * z.b) - z.b)

/-- After `k` steps. -/
structure Inv (z : AC) (S : Nat → Nat → α) (k : Nat) (s : AS α) : Prop where
  st : s.st = 0
  piv0 : ∀ i, i < z.b → s.piv i = i + 1
  pivr : ∀ i, z.b ≤ i → i < (k + 1) * z.b → i < z.N → i + 1 ≤ s.piv i ∧ s.piv i ≤ z.N
  trail : ∀ r c, k * z.b ≤ c → c ≤ r → r < z.N → s.a r c = S (sg z k s.piv r) (sg z k s.piv c)
  fact : ∀ r c, c < k * z.b → c ≤ r → r < z.N →
    S (sg z k s.piv r) (sg z k s.piv c) = ∑ g ∈ range z.N, Lf z.b s.a r g * Hf z.N z.b s.a s.t g c
  unit : ∀ r g, z.b ≤ g → g < (k + 1) * z.b → g < z.N → g / z.b * z.b ≤ r → r ≤ g → s.a r (g - z.b) = if r = g then 1 else 0
  therm : ∀ m, m < k → ∀ i j, i < z.mv m → j < z.mv m → star (s.t m m i j) = s.t m m j i
  tup : ∀ m, m < k → m + 1 < z.mt → ∀ u v, v < u → u < z.mv (m + 1) → s.t (m + 1) m u v = 0
  tz : ∀ m, k ≤ m → (s.t m m = fun _ _ => 0) ∧ s.t (m + 1) m = fun _ _ => 0
  tbv : ∀ r c, r < z.N → c < z.N → c < k * z.b → r / z.b ≤ c / z.b + 1 → c / z.b ≤ r / z.b + 1 → s.tb r c = Tf z.b s.t r c

theorem inv_next (hz : z.OK) (hk : k < z.mt) {S : Nat → Nat → α} (hS : ∀ r c, star (S r c) = S c r) {s s' : AS α} (hI : Inv z S k s)
    {lo w : Nat} (hlo : lo = (k + 1) * z.b) (hw : w = min (z.N - lo) z.b) (hst : s'.st = 0)
    (hrow : ∀ r c, r < lo → s'.a r c = s.a r c)
    (hpiv : ∀ i, lo ≤ i → i < lo + w → i + 1 ≤ s'.piv i ∧ s'.piv i ≤ z.N) (hpo : ∀ i, ¬ (lo ≤ i ∧ i < lo + w) → s'.piv i = s.piv i)
    {Y T : Tl α} (ht : s'.t = (setT (k + 1) k T (setT k k Y s)).t)
    (hY : ∀ i j, i < z.mv k → j < z.mv k → star (Y i j) = Y j i)
    (hT : k + 1 < z.mt → ∀ l u, u < l → l < z.mv (k + 1) → T l u = 0)
    {π : Equiv.Perm Nat} (hπ : π = perm (fun i => s'.piv i - 1) lo w)
    (hcol : ∀ r c, lo ≤ r → r < z.N → c < k * z.b → s'.a r c = s.a (π r) c)
    (hunit : ∀ r c, lo ≤ r → r < z.N → k * z.b ≤ c → c < lo → r ≤ c + z.b → s'.a r c = if r = c + z.b then 1 else 0)
    (htr : ∀ r c, lo ≤ c → c ≤ r → r < z.N → s'.a r c = herm s.a (π r) (π c))
    (hd : ∀ i j, j ≤ i → i < z.mv k → s.a (k * z.b + i) (k * z.b + j) =
      ∑ g ∈ range z.N, Lf z.b s.a (k * z.b + i) g * Hf z.N z.b s.a (setT k k Y s).t g (k * z.b + j))
    (hoff : ∀ r c, lo ≤ r → r < z.N → c < z.b → s.a (π r) (k * z.b + c) =
      ∑ n ∈ range k, ∑ l ∈ range (z.mv (n + 1)), s.a (π r) (n * z.b + l) * Hf z.N z.b s.a (setT k k Y s).t ((n + 1) * z.b + l) (k * z.b + c) +
      ∑ l ∈ range w, s'.a r (k * z.b + l) * ∑ u ∈ range z.b, T l u * star (Lf z.b s.a (k * z.b + c) (k * z.b + u)))
    (htb : ∀ r c, r < z.N → c < z.N → c < lo → (c < k * z.b → s'.tb r c = s.tb r c) ∧
      (k * z.b ≤ c → r / z.b ≤ c / z.b + 1 → c / z.b ≤ r / z.b + 1 → s'.tb r c = Tf z.b s'.t r c)) : Inv z S (k + 1) s' := by
  have hb := hz.b
  have hkN := hz.lt.mp hk
  have hlob : lo = k * z.b + z.b := by rw [hlo, Nat.succ_mul]
  have hlob2 : (k + 1 + 1) * z.b = lo + z.b := by rw [hlo, Nat.succ_mul (k + 1)]
  have hpr : ∀ i, lo ≤ i → i < lo + w → i ≤ s'.piv i - 1 ∧ s'.piv i - 1 < z.N := fun i h1 h2 => by have := hpiv i h1 h2; omega
  have hπr : ∀ r, lo ≤ r → r < z.N → lo ≤ π r ∧ π r < z.N := fun r h1 h2 => by rw [hπ]; exact perm_range hpr h1 h2
  have hπf : ∀ r, r < lo → π r = r := fun r h => by rw [hπ]; exact perm_fix (fun i h1 h2 => (hpr i h1 h2).1) h
  have hsg : ∀ r, sg z (k + 1) s'.piv r = sg z k s.piv (π r) := by
    intro r
    unfold sg
    rw [← hlo, hlob2]
    have e1 : min z.N (lo + z.b) - z.b = (min z.N lo - z.b) + w := by omega
    rw [e1, perm_add]
    by_cases h : w = 0
    · subst h
      rw [hπ]
      simp only [perm, mul_one, Equiv.Perm.coe_one, id]
      congr 1
      refine perm_congr fun i h1 h2 => ?_
      rw [hpo i (by omega)]
    · rw [show z.b + (min z.N lo - z.b) = lo by omega, ← hπ, Equiv.Perm.mul_apply]
      congr 1
      refine perm_congr fun i h1 h2 => ?_
      rw [hpo i (by omega)]
  have ht2 : ∀ m n, ¬ (m = k ∧ n = k) → (setT k k Y s).t m n = s.t m n := fun m n h => setT_t_ne (by omega)
  have ht3 : ∀ m n, ¬ (m = k + 1 ∧ n = k) → s'.t m n = (setT k k Y s).t m n := fun m n h => by rw [ht]; exact setT_t_ne (by omega)
  -- columns before `k`
  have hHk : ∀ g c, c < k * z.b → Hf z.N z.b s'.a s'.t g c = Hf z.N z.b s.a s.t g c := by
    intro g c hc
    refine Hf_congr hb (fun j => hrow c j (by omega)) fun h hh => Tf_eq fun m n hmn hd => ?_
    have : c / z.b < k := by rw [Nat.div_lt_iff_lt_mul hb]; exact hc
    rw [ht3 m n (by omega), ht2 m n (by omega)]
  -- column `k`
  have hHk2 : ∀ g c, k * z.b ≤ c → c < lo → g / z.b ≤ k → Hf z.N z.b s'.a s'.t g c = Hf z.N z.b s.a (setT k k Y s).t g c := by
    intro g c h1 h2 hg
    refine Hf_congr hb (fun j => hrow c j h2) fun h hh => Tf_eq fun m n hmn hd => ?_
    have : c / z.b ≤ k := by
      have : c / z.b < k + 1 := by rw [Nat.div_lt_iff_lt_mul hb]; omega
      omega
    rw [ht3 m n (by omega)]
  refine ⟨hst, ?_, ?_, ?_, ?_, ?_, ?_, ?_, ?_, ?_⟩
  · intro i hi
    rw [hpo i (by omega)]; exact hI.piv0 i hi
  · intro i h1 h2 h3
    by_cases h : lo ≤ i
    · exact hpiv i h (by omega)
    · rw [hpo i (by omega)]
      exact hI.pivr i h1 (by omega) h3
  · intro r c h1 h2 h3
    rw [← hlo] at h1
    rw [htr r c h1 h2 h3, hsg, hsg]
    have hr' := hπr r (by omega) h3
    have hc' := hπr c h1 (by omega)
    unfold herm
    by_cases h : π c ≤ π r
    · rw [if_pos h, hI.trail _ _ (by omega) h hr'.2]
    · rw [if_neg h, hI.trail _ _ (by omega) (by omega) hc'.2, hS]
  · intro r c h1 h2 h3
    rw [← hlo] at h1
    rw [hsg, hsg, hπf c h1]
    by_cases hc : c < k * z.b
    · have hcb : c / z.b < k := by rw [Nat.div_lt_iff_lt_mul hb]; exact hc
      have hle : c ≤ π r := by
        by_cases h : r < lo
        · rw [hπf r h]; exact h2
        · have := hπr r (by omega) h3; omega
      have hlt : π r < z.N := by
        by_cases h : r < lo
        · rw [hπf r h]; exact h3
        · exact (hπr r (by omega) h3).2
      rw [hI.fact _ c hc hle hlt]
      refine sum_congr rfl fun g _ => ?_
      rw [hHk g c hc]
      by_cases hg : g / z.b ≤ k
      · congr 1
        by_cases h : r < lo
        · rw [hπf r h]; exact (Lf_row (fun j => hrow r j h) g).symm
        · have hr' := hπr r (by omega) h3
          have hg2 : g / z.b * z.b ≤ k * z.b := Nat.mul_le_mul_right _ hg
          have hg3 : g < lo := by
            have : g / z.b < k + 1 := by omega
            rw [Nat.div_lt_iff_lt_mul hb] at this; omega
          have hk0 : 0 < k := Nat.lt_of_le_of_lt (Nat.zero_le _) hcb
          have hkb : z.b ≤ k * z.b := Nat.le_mul_of_pos_left _ hk0
          unfold Lf
          by_cases h4 : g < z.b
          · rw [if_pos h4, if_pos h4, if_neg (by omega), if_neg (by omega)]
          · rw [if_neg h4, if_neg h4, if_neg (by omega), if_neg (by omega), hcol r _ (by omega) h3 (by omega)]
      · rw [Hf_far hb (by omega), mul_zero, mul_zero]
    · have hc0 : k * z.b ≤ c := by omega
      obtain ⟨j, rfl⟩ : ∃ j, c = k * z.b + j := ⟨c - k * z.b, by omega⟩
      by_cases h : r < lo
      · rw [hπf r h]
        obtain ⟨i, rfl⟩ : ∃ i, r = k * z.b + i := ⟨r - k * z.b, by omega⟩
        have hi : i < z.mv k := by rw [hz.mv hk, tdim_row]; omega
        rw [← hI.trail _ _ hc0 h2 h3, hd i j (by omega) hi]
        refine sum_congr rfl fun g _ => ?_
        by_cases hg : g / z.b ≤ k
        · rw [hHk2 g _ hc0 h1 hg, Lf_row (fun c => (hrow _ c h))]
        · rw [div_lt_zero hb (by rw [div_of_tile (show i < z.b by omega)]; omega),
            div_lt_zero hb (by rw [div_of_tile (show i < z.b by omega)]; omega), zero_mul, zero_mul]
      · have hr' := hπr r (by omega) h3
        have hk1 : k + 1 < z.mt := by rw [hz.lt]; omega
        have hmk1 : z.mv (k + 1) = w := by rw [hz.mv hk1, hw]; unfold tdim; rw [← hlo, Nat.min_comm]
        rw [← hI.trail _ _ hc0 (by omega) hr'.2, hoff r j (by omega) h3 (by omega), E_off hz hk1 (by omega) (by omega), hmk1]
        congr 1
        · refine sum_congr rfl fun m hm => sum_congr rfl fun l hl => ?_
          rw [mem_range] at hm
          rw [mem_range, hz.mv (by omega), tdim_row] at hl
          have e1 : (m + 1) * z.b ≤ k * z.b := Nat.mul_le_mul_right _ (by omega)
          rw [Nat.succ_mul] at e1
          rw [hHk2 _ _ hc0 h1 (by rw [div_of_tile hl.1]; omega), hcol r _ (by omega) h3 (by omega)]
        · refine sum_congr rfl fun l hl => ?_
          congr 1
          refine sum_congr rfl fun u hu => ?_
          rw [show s'.t (k + 1) k = T from by rw [ht, setT_t_self], Lf_row (fun c => hrow _ c h1)]
  · intro r g h1 h2 h3 h4 h5
    rw [hlob2] at h2
    by_cases h : g < lo
    · rw [hrow r _ (by omega)]
      exact hI.unit r g h1 (by omega) h3 h4 h5
    · have hg : g / z.b = k + 1 := by
        refine Nat.div_eq_of_lt_le (by omega) (by rw [hlob2]; exact h2)
      rw [hg, ← hlo] at h4
      rw [hunit r _ h4 (by omega) (by omega) (by omega) (by omega), Nat.sub_add_cancel h1]
  · intro m hm i j hi hj
    rw [ht3 m m (by omega)]
    by_cases h : m = k
    · subst h
      rw [setT_t_self]; exact hY i j hi hj
    · rw [ht2 m m (by omega)]
      exact hI.therm m (by omega) i j hi hj
  · intro m hm hm1 u v huv hu
    by_cases h : m = k
    · subst h
      rw [ht, setT_t_self]; exact hT hm1 u v huv hu
    · rw [ht3 _ _ (by omega), ht2 _ _ (by omega)]
      exact hI.tup m (by omega) hm1 u v huv hu
  · intro m hm
    rw [ht3 _ _ (by omega), ht2 _ _ (by omega), ht3 _ _ (by omega), ht2 _ _ (by omega)]
    exact hI.tz m (by omega)
  · intro r c h1 h2 h3 h4 h5
    rw [← hlo] at h3
    by_cases hc : c < k * z.b
    · rw [(htb r c h1 h2 h3).1 hc, hI.tbv r c h1 h2 hc h4 h5]
      refine Tf_eq fun m n hmn hd => ?_
      have : c / z.b < k := by rw [Nat.div_lt_iff_lt_mul hb]; exact hc
      rw [ht3 m n (by omega), ht2 m n (by omega)]
    · exact (htb r c h1 h2 h3).2 (by omega) h4 h5

/-! ### A step -/

theorem M_Lf (hz : z.OK) (hk : k < z.mt) {S : Nat → Nat → α} {s : AS α} (hI : Inv z S k s) (h0 : 0 < k) {i u : Nat}
    (hi : i < z.mv k) (hu : u < z.mv k) :
    trE .lower .unit (tl z.b s.a k (k - 1)) i u = Lf z.b s.a (k * z.b + i) (k * z.b + u) := by
  have hb := hz.b
  rw [hz.mv hk, tdim_row] at hi hu
  have hkb : z.b ≤ k * z.b := Nat.le_mul_of_pos_left _ h0
  have e : (k + 1) * z.b = k * z.b + z.b := Nat.succ_mul _ _
  rw [← tl_Lf hb h0 (le_refl _) hu.1]
  unfold trE
  by_cases h : i ≤ u
  · have := hI.unit (k * z.b + i) (k * z.b + u) (by omega) (by omega) hu.2 (by rw [div_of_tile hu.1]; omega) (by omega)
    have e2 : tl z.b s.a k (k - 1) i u = s.a (k * z.b + i) (k * z.b + u - z.b) := by
      unfold tl
      congr 1
      have : (k - 1) * z.b = k * z.b - z.b := by rw [Nat.sub_mul, Nat.one_mul]
      omega
    rw [e2, this]
    by_cases h2 : i = u
    · subst h2; simp
    · rw [if_neg (by simp [h2]), if_neg (by simp [inTri]; omega), if_neg (by omega)]
  · rw [if_neg (by omega), if_pos (by simp [inTri]; omega)]

theorem Tf_inv (hz : z.OK) {S : Nat → Nat → α} {s : AS α} (hI : Inv z S k s) {g h : Nat} (hg : g < z.N) (hh : h < z.N) :
    star (Tf z.b s.t g h) = Tf z.b s.t h g := by
  refine Tf_herm hz.b (N := z.N) (fun m i j hi hj => ?_) hg hh
  by_cases hm : m < k
  · have hmt : m < z.mt := by
      rw [hz.lt]; have := (tdim_row.mp hi).2; omega
    rw [← hz.mv hmt] at hi hj
    exact hI.therm m hm i j hi hj
  · rw [(hI.tz m (by omega)).1, star_zero]

/-- The diagonal block. -/
theorem diag_step (hz : z.OK) (hdv : IsDiv dv) (hk : k < z.mt) {S : Nat → Nat → α} (hS : ∀ r c, star (S r c) = S c r) {s : AS α}
    (hI : Inv z S k s) {s3 : AS α} (h3 : s3 = diagH z k (diagT dv z k (hPre z k s))) :
    s3.a = s.a ∧ s3.piv = s.piv ∧ s3.tb = s.tb ∧ s3.st = 0 ∧ ∃ Y, s3.t = (setT k k Y s).t ∧
      (∀ i j, i < z.mv k → j < z.mv k → star (Y i j) = Y j i) ∧
      (k + 1 < z.mt → ∀ m, 1 ≤ m → m ≤ k → ∀ l j, l < z.mv m → j < z.mv k →
        s3.h m l j = Hf z.N z.b s.a (setT k k Y s).t (m * z.b + l) (k * z.b + j)) ∧
      ∀ i j, j ≤ i → i < z.mv k → s.a (k * z.b + i) (k * z.b + j) =
        ∑ g ∈ range z.N, Lf z.b s.a (k * z.b + i) g * Hf z.N z.b s.a (setT k k Y s).t g (k * z.b + j) := by
  have hb := hz.b
  obtain ⟨h1, e1, hh1⟩ := hPre_eff hz hk hI.st
  rw [e1] at h3
  have hA : ∀ i j, i < z.mv k → j < z.mv k → AhE z k { s with h := h1 } i j = s.a (k * z.b + i) (k * z.b + j) -
      ∑ g ∈ range z.N, Lf z.b s.a (k * z.b + i) g * Hf z.N z.b s.a s.t g (k * z.b + j) := by
    intro i j hi hj
    rw [E_diag hz hk hi hj, (hI.tz k (le_refl _)).1]
    simp only [zero_mul, sum_const_zero, mul_zero, add_zero]
    unfold AhE
    simp only
    rw [sub_sub]
    congr 2
    refine sum_congr rfl fun m hm => sum_congr rfl fun l hl => ?_
    rw [mem_range] at hm hl
    rw [hh1 (m + 1) (by omega) (by omega) l j hl hj]
  have hre : ∀ i, i < z.mv k → star (AhE z k { s with h := h1 } i i) = AhE z k { s with h := h1 } i i := by
    intro i hi
    have hiN : k * z.b + i < z.N := by rw [hz.mv hk, tdim_row] at hi; exact hi.2
    rw [hA i i hi hi, star_sub, E_herm (fun g h hg hh => Tf_inv hz hI hg hh), hI.trail _ _ (by omega) (le_refl _) hiN, hS]
  obtain ⟨w3, w, Y, e2, hY, hYA⟩ := diagT_eff hz hdv hk (s := { s with h := h1 }) hI.st hre
  rw [e2] at h3
  obtain ⟨h2, e3, hh2, hh3⟩ := diagH_eff hz hk (s := { setT k k Y { s with h := h1 } with w3 := w3, w := w }) hI.st
  rw [e3] at h3
  have hHf : ∀ g c, g / z.b ≠ k → Hf z.N z.b s.a (setT k k Y s).t g c = Hf z.N z.b s.a s.t g c := by
    intro g c hg
    refine Hf_congr hb (fun _ => rfl) fun h _ => Tf_eq fun m n hmn _ => setT_t_ne (by omega)
  rw [h3]
  refine ⟨rfl, rfl, rfl, hI.st, Y, rfl, hY, ?_, ?_⟩
  · intro hk1 m hm1 hmk l j hl hj
    have hlb : l < z.b := lt_of_lt_of_le hl (hmv_le hb m)
    by_cases h : m = k
    · subst h
      exact hh3 (by omega) hk1 l j hl hj
    · rw [hHf _ _ (by rw [div_of_tile hlb]; exact h)]
      show h2 m l j = _
      rw [hh2 m h]
      exact hh1 m hm1 (by omega) l j hl hj
  · intro i j hj hi
    have hjk : j < z.mv k := by omega
    have e := hYA i j hj hi
    rw [hA i j hi hjk, E_diag hz hk hi hjk, (hI.tz k (le_refl _)).1] at e
    simp only [zero_mul, sum_const_zero, mul_zero, add_zero] at e
    rw [E_diag hz hk hi hjk, show (setT k k Y s).t k k = Y from setT_t_self]
    have e4 : ∑ u ∈ range (z.mv k), Lf z.b s.a (k * z.b + i) (k * z.b + u) * ∑ v ∈ range (z.mv k), Y u v * star (Lf z.b s.a (k * z.b + j) (k * z.b + v)) =
        if 0 < k then ∑ u ∈ range (z.mv k), trE .lower .unit (tl z.b s.a k (k - 1)) i u *
          ∑ v ∈ range (z.mv k), Y u v * star (trE .lower .unit (tl z.b s.a k (k - 1)) j v) else Y i j := by
      by_cases h0 : 0 < k
      · rw [if_pos h0]
        refine sum_congr rfl fun u hu => ?_
        rw [M_Lf hz hk hI h0 hi (mem_range.mp hu)]
        congr 1
        refine sum_congr rfl fun v hv => ?_
        rw [M_Lf hz hk hI h0 hjk (mem_range.mp hv)]
      · rw [if_neg h0]
        have hk0 : k = 0 := by omega
        subst hk0
        have hL : ∀ x y, y < z.mv 0 → Lf z.b s.a (0 * z.b + x) (0 * z.b + y) = if x = y then 1 else 0 := by
          intro x y hy
          unfold Lf
          rw [Nat.zero_mul, Nat.zero_add, Nat.zero_add, if_pos (lt_of_lt_of_le hy (hmv_le hb 0))]
        rw [sum_eq_single i, hL i i hi, if_pos rfl, one_mul, sum_eq_single j, hL j j hjk, if_pos rfl, star_one, mul_one]
        · intro v hv hne
          rw [hL j v (mem_range.mp hv), if_neg (fun h => hne h.symm), star_zero, mul_zero]
        · intro h; exact absurd (mem_range.mpr hjk) h
        · intro u hu hne
          rw [hL i u (mem_range.mp hu), if_neg (fun h => hne h.symm), zero_mul]
        · intro h; exact absurd (mem_range.mpr hi) h
    rw [e4]
    have e5 : ∑ m ∈ range (k - 1), ∑ l ∈ range (z.mv (m + 1)), s.a (k * z.b + i) (m * z.b + l) *
        Hf z.N z.b s.a (setT k k Y s).t ((m + 1) * z.b + l) (k * z.b + j) =
        ∑ m ∈ range (k - 1), ∑ l ∈ range (z.mv (m + 1)), s.a (k * z.b + i) (m * z.b + l) *
        Hf z.N z.b s.a s.t ((m + 1) * z.b + l) (k * z.b + j) := by
      refine sum_congr rfl fun m hm => sum_congr rfl fun l hl => ?_
      rw [mem_range] at hm hl
      rw [hHf _ _ (by rw [div_of_tile (lt_of_lt_of_le hl (hmv_le hb _))]; omega)]
    have e6 : 0 < k → (setT k k Y s).t k (k - 1) = s.t k (k - 1) := fun h => setT_t_ne (by omega)
    rw [e5]
    by_cases h1 : 1 < k
    · rw [if_pos h1] at e ⊢
      rw [e6 (by omega)]
      have e' : ∀ x y w : α, x = y - w → y = w + x := fun x y w h => by rw [h]; ring
      exact e' _ _ _ e
    · rw [if_neg h1] at e ⊢
      have e' : ∀ x y w : α, x = y - w → y = w + x := fun x y w h => by rw [h]; ring
      exact e' _ _ _ e

theorem copy_tb (hz : z.OK) (hk : k < z.mt) (s : AS α) {r c : Nat} (hr : r < z.N) (hc : c < z.N) :
    (c < k * z.b → (copyT z k s).tb r c = s.tb r c) ∧
    (k * z.b ≤ c → c < (k + 1) * z.b → r / z.b ≤ c / z.b + 1 → c / z.b ≤ r / z.b + 1 → (copyT z k s).tb r c = Tf z.b s.t r c) := by
  have hb := hz.b
  refine ⟨fun h => ?_, fun h1 h2 h3 h4 => ?_⟩
  · unfold copyT put
    simp only
    split <;> split <;> simp only [show ¬ k * z.b ≤ c by omega, false_and, and_false, if_false]
  · have e : (k + 1) * z.b = k * z.b + z.b := Nat.succ_mul _ _
    have hck : c / z.b = k := Nat.div_eq_of_lt_le (by omega) (by omega)
    have hcm : c % z.b = c - k * z.b := by rw [Nat.mod_eq_sub_div_mul, hck]
    obtain ⟨j, rfl⟩ : ∃ j, c = k * z.b + j := ⟨c - k * z.b, by omega⟩
    have hj : j < z.b := by omega
    have hjk : j < z.mv k := by rw [hz.mv hk, tdim_row]; exact ⟨hj, hc⟩
    have hrd := dm r z.b
    have hrm := Nat.mod_lt r hb
    obtain ⟨m, hm⟩ : ∃ m, m = r / z.b := ⟨_, rfl⟩
    obtain ⟨i, hi⟩ : ∃ i, i = r % z.b := ⟨_, rfl⟩
    rw [← hm, ← hi] at hrd
    rw [← hi] at hrm
    have hmt : m < z.mt := by rw [hz.lt]; omega
    have him : i < z.mv m := by rw [hz.mv hmt, tdim_row]; exact ⟨hrm, by omega⟩
    rw [← hrd, Tf_tile hrm hj]
    rw [hck, ← hm] at h3 h4
    have hput : ∀ (X : Nat → Nat → α) (m' : Nat) (Y : Tl α), put z.b X m' k (z.mv m') (z.mv k) Y (m * z.b + i) (k * z.b + j) =
        if m' = m then Y i j else X (m * z.b + i) (k * z.b + j) := by
      intro X m' Y
      unfold put
      by_cases hx : m' = m
      · subst hx
        rw [if_pos (by omega), if_pos rfl, Nat.add_sub_cancel_left, Nat.add_sub_cancel_left]
      · rw [if_neg hx, if_neg]
        intro hcon
        apply hx
        have h6 := hmv_le (n := z.N) hb m'
        have h5 : (m * z.b + i) / z.b = m' := Nat.div_eq_of_lt_le hcon.1 (by rw [Nat.succ_mul]; exact lt_of_lt_of_le hcon.2.1 (Nat.add_le_add_left h6 _))
        rw [div_of_tile hrm] at h5
        exact h5.symm
    have hcases : m = k ∨ m = k + 1 ∨ (0 < k ∧ m = k - 1) := by omega
    have hP : ∀ (c1 c2 : Prop) [Decidable c1] [Decidable c2] (X : Nat → Nat → α) (Y1 Y2 Y3 : Tl α),
        (if c2 then put z.b (if c1 then put z.b (put z.b X k k (z.mv k) (z.mv k) Y1) (k + 1) k (z.mv (k + 1)) (z.mv k) Y2 else
          put z.b X k k (z.mv k) (z.mv k) Y1) (k - 1) k (z.mv (k - 1)) (z.mv k) Y3 else
          (if c1 then put z.b (put z.b X k k (z.mv k) (z.mv k) Y1) (k + 1) k (z.mv (k + 1)) (z.mv k) Y2 else
          put z.b X k k (z.mv k) (z.mv k) Y1)) (m * z.b + i) (k * z.b + j) =
        if c2 ∧ k - 1 = m then Y3 i j else if c1 ∧ k + 1 = m then Y2 i j else if k = m then Y1 i j else X (m * z.b + i) (k * z.b + j) := by
      intro c1 c2 _ _ X Y1 Y2 Y3
      by_cases h1 : c1 <;> by_cases h2 : c2 <;> simp only [h1, h2, if_true, if_false, hput, true_and, false_and]
    unfold copyT
    simp only
    rw [hP]
    rcases hcases with h | h | ⟨h0, h⟩
    · subst h
      rw [if_neg (by omega), if_neg (by omega), if_pos rfl, if_pos (Or.inl rfl)]
    · subst h
      rw [if_neg (by omega), if_pos (by omega), if_pos (Or.inr rfl)]
    · subst h
      rw [if_pos ⟨h0, rfl⟩, if_neg (by omega), if_pos (by omega)]

theorem inv_step (hz : z.OK) (hmag : IsMag mag) (hdv : IsDiv dv) (hk : k < z.mt) {S : Nat → Nat → α} (hS : ∀ r c, star (S r c) = S c r)
    {s s' : AS α} (hI : Inv z S k s) (hs' : s' = stepA mag dv big z s k) :
    (s'.st = 0 → Inv z S (k + 1) s') ∧ (s'.st ≠ 0 → (k + 1) * z.b < s'.st ∧ s'.st ≤ z.N) := by
  have hb := hz.b
  have hkN := hz.lt.mp hk
  have hlob : (k + 1) * z.b = k * z.b + z.b := Nat.succ_mul _ _
  unfold stepA at hs'
  obtain ⟨s3, h3⟩ : ∃ s3, s3 = diagH z k (diagT dv z k (hPre z k s)) := ⟨_, rfl⟩
  rw [← h3] at hs'
  obtain ⟨d1, d2, d3, d4, Y, d5, hY, hh, hd⟩ := diag_step hz hdv hk hS hI h3
  by_cases hk1 : k + 1 < z.mt
  · simp only [if_pos hk1] at hs'
    obtain ⟨a4, w4, e4, ha4⟩ := colUpd_eff hz hk1 s3
    rw [e4] at hs'
    obtain ⟨s5, h5⟩ : ∃ s5, s5 = symSwap z k (offT dv z k (rowSwap z k (panelS mag dv big z k { s3 with a := a4, w5 := w4 }))) := ⟨_, rfl⟩
    rw [← h5] at hs'
    have hz0 : s3.t (k + 1) k = fun _ _ => 0 := by
      rw [d5, setT_t_ne (by omega)]; exact (hI.tz k (le_refl _)).2
    have hst : s'.st = s5.st := by rw [hs']; rfl
    obtain ⟨f1, f2⟩ := low_eff hz hmag hdv hk1 (s := { s3 with a := a4, w5 := w4 }) d4 hz0 h5 rfl rfl
    refine ⟨fun h => ?_, fun h => by rw [hst] at h ⊢; exact f1 h⟩
    obtain ⟨g1, g2, g3, g4, T, g5, g6, g7⟩ := f2 (hst ▸ h)
    simp only at g1 g2 g3 g4 g5 g6 g7
    rw [d1, hz.mvb hk1] at ha4
    have eA : s'.a = s5.a := by rw [hs']; rfl
    have eT : s'.t = s5.t := by rw [hs']; rfl
    have eP : s'.piv = s5.piv := by rw [hs']; rfl
    have hmk1 : z.mv (k + 1) = min (z.N - (k + 1) * z.b) z.b := by rw [hz.mv hk1]; unfold tdim; rw [Nat.min_comm]
    have hpr : ∀ i, (k + 1) * z.b ≤ i → i < (k + 1) * z.b + min (z.N - (k + 1) * z.b) z.b → i ≤ s5.piv i - 1 ∧ s5.piv i - 1 < z.N :=
      fun i h1 h2 => by have := g2 i h1 h2; omega
    have hπr : ∀ r, (k + 1) * z.b ≤ r → r < z.N → (k + 1) * z.b ≤ perm (fun i => s5.piv i - 1) ((k + 1) * z.b) (min (z.N - (k + 1) * z.b) z.b) r ∧
      perm (fun i => s5.piv i - 1) ((k + 1) * z.b) (min (z.N - (k + 1) * z.b) z.b) r < z.N := fun r h1 h2 => perm_range hpr h1 h2
    obtain ⟨π, hπ⟩ : ∃ π, π = perm (fun i => s5.piv i - 1) ((k + 1) * z.b) (min (z.N - (k + 1) * z.b) z.b) := ⟨_, rfl⟩
    rw [← hπ] at g4 g7 hπr
    have hrow4 : ∀ r c, r < (k + 1) * z.b → a4 r c = s.a r c := fun r c h => by rw [ha4, if_neg (by omega)]
    refine inv_next hz hk hS hI rfl rfl h ?_ ?_ ?_ (Y := Y) (T := T) ?_ hY (fun _ => g6) (π := π) (by rw [eP]; exact hπ) ?_ ?_ ?_ hd ?_ ?_
    · intro r c h1
      rw [eA, g4, if_neg (by omega), if_pos h1, hrow4 r c h1]
    · rw [eP]; exact g2
    · intro i h1
      rw [eP, g3 i h1, d2]
    · rw [eT, g5]
      unfold setT
      simp only [d5]
      rfl
    · intro r c h1 h2 h3
      rw [eA, g4, if_pos ⟨h1, h2⟩, if_pos h3, ha4, if_neg (by omega)]
    · intro r c h1 h2 h3 h4 h5
      rw [eA, g4, if_pos ⟨h1, h2⟩, if_neg (by omega), if_pos h4, if_pos h5]
    · intro r c h1 h2 h3
      rw [eA, g4, if_pos (by omega), if_neg (by omega), if_neg (by omega), if_pos h2]
      have hr' := hπr r (by omega) h3
      have hc' := hπr c h1 (by omega)
      unfold herm
      rw [ha4, ha4, if_neg (show ¬ (_ ∧ _ ∧ _ ∧ π c < _) by omega), if_neg (show ¬ (_ ∧ _ ∧ _ ∧ π r < _) by omega)]
    · clear h3
      intro r c h1 h2 h3
      have hr' := hπr r h1 h2
      have e := g7 r c h1 h2 h3
      rw [ha4, if_pos (by omega)] at e
      rw [eA]
      have e1 : ∑ n ∈ range k, ∑ l ∈ range (z.mv (n + 1)), s.a (π r) (n * z.b + l) * s3.h (n + 1) l (k * z.b + c - k * z.b) =
          ∑ n ∈ range k, ∑ l ∈ range (z.mv (n + 1)), s.a (π r) (n * z.b + l) * Hf z.N z.b s.a (setT k k Y s).t ((n + 1) * z.b + l) (k * z.b + c) := by
        refine sum_congr rfl fun n hn => sum_congr rfl fun l hl => ?_
        rw [mem_range] at hn hl
        rw [Nat.add_sub_cancel_left, hh hk1 (n + 1) (by omega) (by omega) l c hl (by rw [hz.mvb hk1]; exact h3)]
      rw [e1] at e
      rw [eq_add_of_sub_eq' e]
      congr 1
      refine sum_congr rfl fun l hl => ?_
      congr 1
      have hmk := hz.mvb hk1
      by_cases h0 : 0 < k
      · rw [if_pos h0]
        refine sum_congr rfl fun u hu => ?_
        rw [mem_range] at hu
        congr 2
        rw [← M_Lf hz hk hI h0 (by omega) (by omega)]
        unfold trE tl
        rw [hrow4 _ _ (by omega)]
      · rw [if_neg h0]
        have hk0 : k = 0 := by omega
        subst hk0
        have hL : ∀ y, y < z.b → Lf z.b s.a (0 * z.b + c) (0 * z.b + y) = if c = y then 1 else 0 := by
          intro y hy
          unfold Lf
          rw [Nat.zero_mul, Nat.zero_add, Nat.zero_add, if_pos hy]
        rw [sum_eq_single c, hL c h3, if_pos rfl, star_one, mul_one]
        · intro u hu hne
          rw [hL u (mem_range.mp hu), if_neg (fun h => hne h.symm), star_zero, mul_zero]
        · intro h'; exact absurd (mem_range.mpr h3) h'
    · intro r c h1 h2 h3
      obtain ⟨q1, q2⟩ := copy_tb hz hk s5 h1 h2
      refine ⟨fun h => ?_, fun h h4 h5 => ?_⟩
      · rw [hs', q1 h, g1, d3]
      · rw [eT, hs']; exact q2 h h3 h4 h5
  · simp only [if_neg hk1] at hs'
    have hN : z.N ≤ (k + 1) * z.b := by rw [hz.lt] at hk1; omega
    have eA : s'.a = s.a := by rw [hs', ← d1]; rfl
    have eT : s'.t = s3.t := by rw [hs']; rfl
    have eP : s'.piv = s.piv := by rw [hs', ← d2]; rfl
    have hst : s'.st = 0 := by rw [hs', ← d4]; rfl
    refine ⟨fun h => ?_, fun h => absurd hst h⟩
    refine inv_next hz hk hS hI rfl rfl h (fun r c _ => by rw [eA]) (fun i h1 h2 => by omega) (fun i _ => by rw [eP]) (Y := Y)
      (T := s.t (k + 1) k) ?_ hY (fun h => absurd h hk1) (π := perm (fun i => s'.piv i - 1) ((k + 1) * z.b) (min (z.N - (k + 1) * z.b) z.b)) rfl
      (fun r c h1 h2 => by omega) (fun r c h1 h2 => by omega) (fun r c h1 h2 h3 => by omega) hd (fun r c h1 h2 => by omega) ?_
    · rw [eT, d5]
      funext m n
      by_cases h : m = k + 1 ∧ n = k
      · obtain ⟨rfl, rfl⟩ := h
        rw [setT_t_self, setT_t_ne (by omega)]
      · rw [setT_t_ne (m := k + 1) (n := k) (by omega)]
    · intro r c h1 h2 h3
      obtain ⟨q1, q2⟩ := copy_tb hz hk s3 h1 h2
      refine ⟨fun h => ?_, fun h h4 h5 => ?_⟩
      · rw [hs', q1 h, d3]
      · rw [eT, hs']; exact q2 h h3 h4 h5

/-- Once the status is not `PlasmaSuccess` it does not change. -/
theorem st_keep {s : AS α} (h : s.st ≠ 0) : (stepA mag dv big z s k).st = s.st := by
  have hP : hPre z k s = s := if_pos h
  have hT : diagT dv z k s = s := if_pos h
  have hH : diagH z k s = s := if_pos h
  have hC : (colUpd z k s).st = s.st := by
    have key : ∀ {ι : Type} (f : AS α → ι → AS α) (l : List ι), (∀ s x, (f s x).st = s.st) → ∀ (s : AS α), (l.foldl f s).st = s.st := by
      intro ι f l hf
      induction l with
      | nil => intro s; rfl
      | cons x l ih => intro s; rw [List.foldl_cons, ih, hf]
    have k1 : ∀ s : AS α, (w5Mul z k s).st = s.st := by
      intro s; unfold w5Mul; refine key _ _ (fun s n => ?_) s; refine key _ _ (fun s m => ?_) s; rfl
    have k2 : ∀ s : AS α, (w5Sum z k s).st = s.st := by
      intro s; unfold w5Sum; refine key _ _ (fun s n => ?_) s; refine key _ _ (fun s m => ?_) s; rfl
    have k3 : ∀ s : AS α, (w5Add z k s).st = s.st := key _ _ fun _ _ => rfl
    have k4 : ∀ s : AS α, (colDirect z k s).st = s.st := by
      intro s; unfold colDirect; refine key _ _ (fun s n => ?_) s; refine key _ _ (fun s m => ?_) s; rfl
    unfold colUpd
    split
    · split
      · rw [k3, k2, k1]
      · rw [k4]
    · rfl
  unfold stepA
  rw [hP, hT, hH]
  simp only
  split
  · obtain ⟨s4, h4⟩ : ∃ s4, s4 = colUpd z k s := ⟨_, rfl⟩
    rw [← h4] at hC ⊢
    have h4' : s4.st ≠ 0 := by rw [hC]; exact h
    unfold copyT symSwap offT rowSwap panelS setT
    simp only [if_pos h4', if_neg (show ¬ (s4.st = 0 ∧ 0 < k) by omega)]
    exact hC
  · rfl

/-- The Hermitian matrix given by the lower triangle of `A`. -/
def full (N : Nat) (A : Nat → Nat → α) (r c : Nat) : α := if r < N ∧ c < N then herm A r c else 0

theorem full_herm {A : Nat → Nat → α} (hA : ∀ i, i < N → star (A i i) = A i i) (r c : Nat) : star (full N A r c) = full N A c r := by
  unfold full herm
  by_cases h : r < N ∧ c < N
  · rw [if_pos h, if_pos (show c < N ∧ r < N from h.symm)]
    rcases Nat.lt_trichotomy r c with h1 | h1 | h1
    · rw [if_neg (show ¬ c ≤ r by omega), if_pos (show r ≤ c by omega), star_star]
    · subst h1; rw [if_pos (le_refl _)]; exact hA r h.1
    · rw [if_pos (show c ≤ r by omega), if_neg (show ¬ r ≤ c by omega)]
  · rw [if_neg h, if_neg (by omega), star_zero]

theorem inv_start (hz : z.OK) (A : Nat → Nat → α) (piv : Nat → Nat) {tb0 : Nat → Nat → α} : Inv z (full z.N A) 0 (startA z A piv tb0) := by
  have hb := hz.b
  refine ⟨rfl, fun i h => if_pos h, fun i h1 h2 => by omega, ?_, fun r c h => by omega, fun r g h1 h2 => by omega, fun m h => by omega,
    fun m h => by omega, fun m _ => ⟨rfl, rfl⟩, fun r c _ _ h => by omega⟩
  intro r c _ h2 h3
  unfold sg
  rw [show min z.N ((0 + 1) * z.b) - z.b = 0 by omega]
  show A r c = full z.N A r c
  unfold full herm
  rw [if_pos (by omega), if_pos h2]

theorem stepsA_succ {s : AS α} {K : Nat} : stepsA mag dv big z s (K + 1) = stepA mag dv big z (stepsA mag dv big z s K) K := by
  unfold stepsA; rw [List.range_succ, List.foldl_append]; rfl

theorem inv_all {tb0 : Nat → Nat → α} (hz : z.OK) (hmag : IsMag mag) (hdv : IsDiv dv) {A : Nat → Nat → α} (hA : ∀ i, i < z.N → star (A i i) = A i i)
    (piv : Nat → Nat) {K : Nat} (hK : K ≤ z.mt) :
    ((stepsA mag dv big z (startA z A piv tb0) K).st = 0 → Inv z (full z.N A) K (stepsA mag dv big z (startA z A piv tb0) K)) ∧
    ((stepsA mag dv big z (startA z A piv tb0) K).st ≠ 0 → z.b < (stepsA mag dv big z (startA z A piv tb0) K).st ∧
      (stepsA mag dv big z (startA z A piv tb0) K).st ≤ z.N) := by
  induction K with
  | zero => exact ⟨fun _ => inv_start hz A piv, fun h => absurd rfl h⟩
  | succ K ih =>
    obtain ⟨i1, i2⟩ := ih (by omega)
    rw [stepsA_succ]
    generalize stepsA mag dv big z (startA z A piv tb0) K = s at *
    by_cases h : s.st = 0
    · obtain ⟨j1, j2⟩ := inv_step (big := big) hz hmag hdv (by omega) (full_herm hA) (i1 h) rfl
      refine ⟨j1, fun hne => ?_⟩
      have := j2 hne
      rw [Nat.succ_mul] at this
      omega
    · rw [st_keep h]
      exact ⟨fun h' => absurd h' h, fun _ => i2 h⟩

theorem sg_final (hz : z.OK) {piv : Nat → Nat} (h0 : ∀ i, i < z.b → piv i = i + 1) :
    sg z z.mt piv = perm (fun i => piv i - 1) 0 z.N := by
  have hb := hz.b
  have : ¬ z.mt < z.mt := Nat.lt_irrefl _
  rw [hz.lt] at this
  unfold sg
  rw [Nat.succ_mul, show min z.N (z.mt * z.b + z.b) - z.b = z.N - z.b by omega]
  have hid : ∀ n, n ≤ z.b → perm (fun i => piv i - 1) 0 n = 1 := by
    intro n
    induction n with
    | zero => intro _; rfl
    | succ n ih =>
      intro hn
      unfold perm
      rw [ih (by omega), Nat.zero_add, h0 n (by omega), Nat.add_sub_cancel, Equiv.swap_self, one_mul]
      rfl
  by_cases h : z.N ≤ z.b
  · rw [hid z.N h, show z.N - z.b = 0 by omega]; rfl
  · rw [show z.N = z.b + (z.N - z.b) by omega, perm_add, hid z.b (le_refl _), one_mul, Nat.zero_add, Nat.add_sub_cancel_left]

/-- The result of all steps. -/
theorem aasen_ok {tb0 : Nat → Nat → α} (hz : z.OK) (hmag : IsMag mag) (hdv : IsDiv dv) {A : Nat → Nat → α} (hA : ∀ i, i < z.N → star (A i i) = A i i)
    (piv : Nat → Nat) {s : AS α} (hs : s = stepsA mag dv big z (startA z A piv tb0) z.mt) :
    (s.st ≠ 0 → z.b < s.st ∧ s.st ≤ z.N) ∧
    (s.st = 0 →
      (∀ i, i < z.N → i + 1 ≤ s.piv i ∧ s.piv i ≤ z.N) ∧ (∀ i, i < z.b → s.piv i = i + 1) ∧
      (∀ r c, r < z.N → c < z.N → herm A (perm (fun i => s.piv i - 1) 0 z.N r) (perm (fun i => s.piv i - 1) 0 z.N c) =
        ∑ g ∈ range z.N, ∑ h ∈ range z.N, Lf z.b s.a r g * Tf z.b s.t g h * star (Lf z.b s.a c h)) ∧
      (∀ r g, r < z.N → g < z.N → r ≤ g → Lf z.b s.a r g = if r = g then 1 else 0) ∧
      (∀ g h, g < z.N → h < z.N → star (Tf z.b s.t g h) = Tf z.b s.t h g) ∧
      (∀ g h, g < z.N → h < z.N → g + z.b < h ∨ h + z.b < g → Tf z.b s.t g h = 0) ∧
      ∀ g h, g < z.N → h < z.N → g ≤ h + z.b → h ≤ g + z.b → s.tb g h = Tf z.b s.t g h) := by
  have hb := hz.b
  obtain ⟨i1, i2⟩ := inv_all (big := big) hz hmag hdv hA piv (le_refl z.mt)
  rw [← hs] at i1 i2
  refine ⟨i2, fun h0 => ?_⟩
  have hI := i1 h0
  have hmtN : z.N ≤ z.mt * z.b := by
    have : ¬ z.mt < z.mt := Nat.lt_irrefl _
    rw [hz.lt] at this; omega
  have hpr : ∀ i, i < z.N → i + 1 ≤ s.piv i ∧ s.piv i ≤ z.N := by
    intro i hi
    by_cases h : i < z.b
    · rw [hI.piv0 i h]; omega
    · exact hI.pivr i (by omega) (by rw [Nat.succ_mul]; omega) hi
  have hTh : ∀ g h, g < z.N → h < z.N → star (Tf z.b s.t g h) = Tf z.b s.t h g := fun g h hg hh => Tf_inv hz hI hg hh
  have hperm : ∀ r, r < z.N → perm (fun i => s.piv i - 1) 0 z.N r < z.N := fun r hr =>
    (perm_range (m := z.N) (fun i _ h2 => by have := hpr i (by omega); omega) (Nat.zero_le _) hr).2
  have hfact : ∀ r c, c ≤ r → r < z.N → full z.N A (sg z z.mt s.piv r) (sg z z.mt s.piv c) =
      ∑ g ∈ range z.N, Lf z.b s.a r g * Hf z.N z.b s.a s.t g c := fun r c h1 h2 => hI.fact r c (by omega) h1 h2
  have hdiv : ∀ x y : Nat, x ≤ y + z.b → x / z.b ≤ y / z.b + 1 := by
    intro x y h
    rw [← Nat.add_div_right y hb]
    exact Nat.div_le_div_right h
  refine ⟨hpr, hI.piv0, ?_, ?_, hTh, ?_, ?_⟩
  · intro r c hr hc
    have e1 : herm A (perm (fun i => s.piv i - 1) 0 z.N r) (perm (fun i => s.piv i - 1) 0 z.N c) =
        full z.N A (sg z z.mt s.piv r) (sg z z.mt s.piv c) := by
      rw [sg_final hz hI.piv0]
      unfold full
      rw [if_pos ⟨hperm r hr, hperm c hc⟩]
    have e2 : full z.N A (sg z z.mt s.piv r) (sg z z.mt s.piv c) = ∑ g ∈ range z.N, Lf z.b s.a r g * Hf z.N z.b s.a s.t g c := by
      by_cases h : c ≤ r
      · exact hfact r c h hr
      · rw [← full_herm hA, hfact c r (by omega) hc, E_herm hTh]
    rw [e1, e2]
    refine sum_congr rfl fun g _ => ?_
    unfold Hf
    rw [mul_sum]
    exact sum_congr rfl fun h _ => by ring
  · intro r g hr hg hrg
    by_cases h : r < g / z.b * z.b
    · rw [Lf_zero h, if_neg]
      rintro rfl
      have := Nat.div_mul_le_self r z.b
      omega
    · unfold Lf
      by_cases h1 : g < z.b
      · rw [if_pos h1]
      · rw [if_neg h1, if_neg h]
        exact hI.unit r g (by omega) (by rw [Nat.succ_mul]; omega) hg (by omega) hrg
  · have key : ∀ g h, g < z.N → h < z.N → h + z.b < g → Tf z.b s.t g h = 0 := by
      intro g h hg hh hlt
      unfold Tf
      have e1 : h / z.b + 1 ≤ g / z.b := by rw [← Nat.add_div_right h hb]; exact Nat.div_le_div_right (by omega)
      by_cases h1 : g / z.b = h / z.b + 1
      · rw [if_pos (Or.inr h1), h1]
        have d1 := dm g z.b
        have d2 := dm h z.b
        have hgt : h / z.b + 1 < z.mt := by
          rw [← h1, hz.lt]
          have := Nat.div_mul_le_self g z.b
          omega
        rw [h1, Nat.succ_mul] at d1
        refine hI.tup (h / z.b) (by omega) hgt _ _ (by omega) ?_
        rw [hz.mv hgt, tdim_row]
        refine ⟨Nat.mod_lt _ hb, ?_⟩
        rw [Nat.succ_mul]; omega
      · rw [if_neg (by omega), if_neg (by omega)]
    intro g h hg hh hor
    rcases hor with h1 | h1
    · rw [← hTh h g hh hg, key h g hh hg h1, star_zero]
    · exact key g h hg hh h1
  · intro g h hg hh h1 h2
    exact hI.tbv g h hg hh (by omega) (hdiv g h h1) (hdiv h g h2)

end

end Verif.Aasen

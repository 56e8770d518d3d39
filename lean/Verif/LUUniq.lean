/-
Uniqueness of the LU factorization with partial pivoting when there are no ties.  Mathematics
only, no program text.
-/
import Verif.LUMath
import Mathlib.Order.Defs.LinearOrder

namespace Verif.LU

open Finset

universe v w

variable {α : Type v} [Field α] {γ : Type w} [LinearOrder γ]

/-- The entries of the factors with index `min r j < c` are determined by the product. -/
theorem luE_unique {m n c : Nat} (hcm : c ≤ m) {X Y : Nat → Nat → α}
    (h : ∀ r j, r < m → j < n → min r j < c → luE X r j = luE Y r j) (hd : ∀ j, j < c → X j j ≠ 0)
    (hcn : c ≤ n) : ∀ r j, r < m → j < n → min r j < c → X r j = Y r j := by
  have key : ∀ l, l < c → ∀ r j, r < m → j < n → min r j = l → X r j = Y r j := by
    intro l
    induction l using Nat.strong_induction_on with
    | _ l ih =>
      intro hl
      have hup : ∀ j, l ≤ j → j < n → X l j = Y l j := by
        intro j h1 h2
        have e := h l j (by omega) h2 (by omega)
        unfold luE at e
        rw [if_pos h1, if_pos h1, Nat.min_eq_left (by omega)] at e
        have es : ∑ x ∈ range l, X l x * X x j = ∑ x ∈ range l, Y l x * Y x j := by
          refine sum_congr rfl fun x hx => ?_
          rw [mem_range] at hx
          rw [ih x hx (by omega) l x (by omega) (by omega) (by omega), ih x hx (by omega) x j (by omega) h2 (by omega)]
        rw [es] at e
        exact add_left_cancel e
      intro r j hr hj hm
      rcases Nat.lt_or_ge j r with h1 | h1
      · obtain rfl : j = l := by omega
        have e := h r j hr hj (by omega)
        unfold luE at e
        rw [if_neg (by omega), if_neg (by omega), Nat.min_eq_right (by omega), sum_range_succ, sum_range_succ,
          add_zero, add_zero] at e
        have es : ∑ x ∈ range j, X r x * X x j = ∑ x ∈ range j, Y r x * Y x j := by
          refine sum_congr rfl fun x hx => ?_
          rw [mem_range] at hx
          rw [ih x hx (by omega) r x hr (by omega) (by omega), ih x hx (by omega) x j (by omega) hj (by omega)]
        rw [es] at e
        have e2 := add_left_cancel e
        rw [← hup j (le_refl _) hj] at e2
        exact mul_right_cancel₀ (hd j hl) e2
      · obtain rfl : r = l := by omega
        exact hup j h1 hj
  intro r j hr hj hm
  exact key _ hm r j hr hj rfl

/-- `A` with the interchanges `p` is the product of the factors in `X`; the multipliers are bounded. -/
structure PivLU (mag : α → γ) (m n : Nat) (A : Nat → Nat → α) (p : Nat → Nat) (X : Nat → Nat → α) : Prop where
  rng : ∀ i, i < min m n → i ≤ p i ∧ p i < m
  lu : ∀ r c, r < m → c < n → A (perm p 0 (min m n) r) c = luE X r c
  dia : ∀ i, i < min m n → X i i ≠ 0
  dom : ∀ c r, c < min m n → c < r → r < m → mag (X r c * X c c) ≤ mag (X c c)

variable {mag : α → γ} {m n : Nat} {A : Nat → Nat → α}

theorem perm_symm_range {p : Nat → Nat} {lo k m : Nat} (h : ∀ i, lo ≤ i → i < lo + k → i ≤ p i ∧ p i < m)
    (hm : lo + k ≤ m) {r : Nat} (hr : lo ≤ r) (hrm : r < m) :
    lo ≤ (perm p lo k).symm r ∧ (perm p lo k).symm r < m := by
  constructor
  · by_contra hc
    have := perm_fix (fun i a b => (h i a b).1) (Nat.lt_of_not_le hc)
    rw [Equiv.apply_symm_apply] at this
    omega
  · by_contra hc
    have := perm_ge h hm (Nat.le_of_not_lt hc)
    rw [Equiv.apply_symm_apply] at this
    omega

theorem perm_symm_fix {p : Nat → Nat} {lo k : Nat} (h : ∀ i, lo ≤ i → i < lo + k → i ≤ p i) {r : Nat}
    (hr : r < lo) : (perm p lo k).symm r = r := by
  rw [Equiv.symm_apply_eq, perm_fix h hr]

/-- The factors before the interchanges with index `≥ c`. -/
def unp (p : Nat → Nat) (c K : Nat) (X : Nat → Nat → α) (r j : Nat) : α := X ((perm p c (K - c)).symm r) j

theorem PivLU.unp_lu {p : Nat → Nat} {X : Nat → Nat → α} (h : PivLU mag m n A p X) {c : Nat} (hc : c ≤ min m n)
    {r j : Nat} (hr : r < m) (hj : j < n) (hm : min r j < c) :
    luE (unp p c (min m n) X) r j = A (perm p 0 c r) j := by
  have hp : ∀ i, c ≤ i → i < c + (min m n - c) → i ≤ p i ∧ p i < m := fun i h1 h2 => h.rng i (by omega)
  have hfix : ∀ l, l < c → unp p c (min m n) X l = X l := fun l hl => by
    funext j; unfold unp; rw [perm_symm_fix (fun i a b => (hp i a b).1) hl]
  have key : ∀ r', r' < m → min r' j < c → perm p c (min m n - c) r' = r → luE (unp p c (min m n) X) r j = luE X r' j := by
    intro r' h1 h2 h3
    rcases Nat.lt_or_ge r' c with h4 | h4
    · rw [perm_fix (fun i a b => (hp i a b).1) h4] at h3
      subst h3
      unfold luE
      rw [hfix r' h4]
      congr 1
      refine sum_congr rfl fun l hl => ?_
      rw [mem_range] at hl
      rw [hfix l (by omega)]
    · have h5 := perm_range hp h4 h1
      rw [h3] at h5
      have hu : unp p c (min m n) X r = X r' := by
        funext j; unfold unp; rw [← h3, Equiv.symm_apply_apply]
      unfold luE
      rw [hu, Nat.min_eq_right (show j + 1 ≤ r by omega), Nat.min_eq_right (show j + 1 ≤ r' by omega),
        if_neg (by omega), if_neg (by omega)]
      congr 1
      refine sum_congr rfl fun l hl => ?_
      rw [mem_range] at hl
      rw [hfix l (by omega)]
  have h6 : (perm p c (min m n - c)).symm r < m ∧ min ((perm p c (min m n - c)).symm r) j < c := by
    rcases Nat.lt_or_ge r c with h4 | h4
    · rw [perm_symm_fix (fun i a b => (hp i a b).1) h4]; omega
    · have := perm_symm_range hp (by omega) h4 hr
      omega
  rw [key _ h6.1 h6.2 (Equiv.apply_symm_apply _ _), ← h.lu _ j h6.1 hj]
  have : perm p 0 (min m n) = perm p 0 c * perm p c (min m n - c) := by
    have e := perm_add p 0 c (min m n - c)
    rwa [Nat.zero_add, Nat.add_sub_cancel' (by omega)] at e
  rw [this, Equiv.Perm.mul_apply, Equiv.apply_symm_apply]

/-- The candidates for pivot `c`. -/
theorem PivLU.schur {p : Nat → Nat} {X : Nat → Nat → α} (h : PivLU mag m n A p X) {c : Nat} (hc : c < min m n)
    {r : Nat} (hcr : c ≤ r) (hr : r < m) :
    A (perm p 0 c (perm p c (min m n - c) r)) c =
      ∑ l ∈ range c, unp p c (min m n) X (perm p c (min m n - c) r) l * unp p c (min m n) X l c +
        if r = c then X c c else X r c * X c c := by
  have hp : ∀ i, c ≤ i → i < c + (min m n - c) → i ≤ p i ∧ p i < m := fun i h1 h2 => h.rng i (by omega)
  have : perm p 0 (min m n) = perm p 0 c * perm p c (min m n - c) := by
    have e := perm_add p 0 c (min m n - c)
    rwa [Nat.zero_add, Nat.add_sub_cancel' (by omega)] at e
  rw [← Equiv.Perm.mul_apply, ← this, h.lu r c hr (by omega)]
  have e : ∀ l, l < c → unp p c (min m n) X (perm p c (min m n - c) r) l * unp p c (min m n) X l c = X r l * X l c := by
    intro l hl
    unfold unp
    rw [Equiv.symm_apply_apply, perm_symm_fix (fun i a b => (hp i a b).1) hl]
  rw [sum_congr rfl fun l hl => e l (mem_range.mp hl)]
  unfold luE
  rcases Nat.eq_or_lt_of_le hcr with h1 | h1
  · subst h1
    rw [if_pos (le_refl _), if_pos rfl, Nat.min_eq_left (by omega)]
  · rw [if_neg (by omega), if_neg (by omega), Nat.min_eq_right (by omega), sum_range_succ, add_zero]

theorem perm_first {p : Nat → Nat} {c k : Nat} (h : ∀ i, c ≤ i → i < c + k → i ≤ p i) (hk : 0 < k) :
    perm p c k c = p c := by
  obtain ⟨d, rfl⟩ := Nat.exists_eq_add_of_le (show 1 ≤ k by omega)
  rw [perm_add, Equiv.Perm.mul_apply, perm_fix (lo := c + 1) (fun i a b => h i (by omega) (by omega)) (Nat.lt_succ_self c)]
  simp [perm]

/-- **Uniqueness.**  If one factorization has no ties, every other factorization with bounded
multipliers has the same pivots and the same factors. -/
theorem PivLU.unique {p q : Nat → Nat} {X Y : Nat → Nat → α} (h : PivLU mag m n A p X) (h' : PivLU mag m n A q Y)
    (hs : ∀ c r, c < min m n → c < r → r < m → mag (X r c * X c c) < mag (X c c)) :
    (∀ i, i < min m n → p i = q i) ∧ ∀ r c, r < m → c < n → X r c = Y r c := by
  have hpq : ∀ c, c ≤ min m n → ∀ i, i < c → p i = q i := by
    intro c
    induction c with
    | zero => intro _ i hi; omega
    | succ c ih =>
      intro hc i hi
      have ih' := ih (by omega)
      rcases Nat.lt_or_ge i c with h1 | h1
      · exact ih' i h1
      obtain rfl : i = c := by omega
      have hp : ∀ l, i ≤ l → l < i + (min m n - i) → l ≤ p l ∧ p l < m := fun l h1 h2 => h.rng l (by omega)
      have hq : ∀ l, i ≤ l → l < i + (min m n - i) → l ≤ q l ∧ q l < m := fun l h1 h2 => h'.rng l (by omega)
      have hperm : perm p 0 i = perm q 0 i := perm_congr fun l _ hl => ih' l (by omega)
      have hU : ∀ r j, r < m → j < n → min r j < i →
          unp p i (min m n) X r j = unp q i (min m n) Y r j := by
        refine luE_unique (by omega) (fun r j hr hj hm => ?_) (fun j hj => ?_) (by omega)
        · rw [h.unp_lu (by omega) hr hj hm, h'.unp_lu (by omega) hr hj hm, hperm]
        · unfold unp
          rw [perm_symm_fix (fun l a b => (hp l a b).1) hj]
          exact h.dia j (by omega)
      -- candidates
      have hS : ∀ x, i ≤ x → x < m →
          (if (perm p i (min m n - i)).symm x = i then X i i else X ((perm p i (min m n - i)).symm x) i * X i i) =
          (if (perm q i (min m n - i)).symm x = i then Y i i else Y ((perm q i (min m n - i)).symm x) i * Y i i) := by
        intro x h1 h2
        have a1 := perm_symm_range hp (by omega) h1 h2
        have a2 := perm_symm_range hq (by omega) h1 h2
        have e1 := h.schur (c := i) (by omega) a1.1 a1.2
        have e2 := h'.schur (c := i) (by omega) a2.1 a2.2
        rw [Equiv.apply_symm_apply] at e1 e2
        rw [← hperm, e1] at e2
        have e3 : ∑ l ∈ range i, unp p i (min m n) X x l * unp p i (min m n) X l i =
            ∑ l ∈ range i, unp q i (min m n) Y x l * unp q i (min m n) Y l i := by
          refine sum_congr rfl fun l hl => ?_
          rw [mem_range] at hl
          rw [hU x l h2 (by omega) (by omega), hU l i (by omega) (by omega) (by omega)]
        rw [e3] at e2
        exact add_left_cancel e2
      by_contra hne
      have b1 := h.rng i (by omega)
      have b2 := h'.rng i (by omega)
      have f1 : (perm p i (min m n - i)).symm (p i) = i := by
        rw [Equiv.symm_apply_eq, perm_first (fun l a b => (hp l a b).1) (by omega)]
      have f2 : (perm q i (min m n - i)).symm (q i) = i := by
        rw [Equiv.symm_apply_eq, perm_first (fun l a b => (hq l a b).1) (by omega)]
      have g1 : (perm p i (min m n - i)).symm (q i) ≠ i := fun e =>
        hne (Equiv.injective _ (f1.trans e.symm))
      have g2 : (perm q i (min m n - i)).symm (p i) ≠ i := fun e =>
        hne (Equiv.injective _ (e.trans f2.symm))
      have c1 := hS (p i) b1.1 b1.2
      have c2 := hS (q i) b2.1 b2.2
      rw [if_pos f1, if_neg g2] at c1
      rw [if_neg g1, if_pos f2] at c2
      have r1 := perm_symm_range hp (by omega) b2.1 b2.2
      have r2 := perm_symm_range hq (by omega) b1.1 b1.2
      have d1 := hs i _ (by omega) (show i < (perm p i (min m n - i)).symm (q i) by omega) r1.2
      have d2 := h'.dom i _ (by omega) (show i < (perm q i (min m n - i)).symm (p i) by omega) r2.2
      rw [c2, c1] at d1
      exact absurd d1 (not_lt.mpr d2)
  have hpq' := hpq _ (le_refl _)
  refine ⟨hpq', ?_⟩
  intro r c hr hc
  refine luE_unique (m := m) (n := n) (c := min m n) (by omega) (fun r j hr hj _ => ?_) h.dia (by omega) r c hr hc ?_
  · rw [← h.lu r j hr hj, ← h'.lu r j hr hj, perm_congr (q := q) fun i _ hi => hpq' i (by omega)]
  · omega

end Verif.LU

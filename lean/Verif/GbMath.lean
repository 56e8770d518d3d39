/-
Band LU factorization: bandwidth of the factors, and solves with delayed interchanges.
Mathematics only, no program text.
-/
import Verif.LUMath

namespace Verif.LU

open Finset

universe v

variable {α : Type v} [Field α]

/-- The upper factor of a band matrix with interchanges has at most `kl + ku` superdiagonals. -/
theorem lu_upper_band {n kl ku : Nat} {A X : Nat → Nat → α} {π : Equiv.Perm Nat} (h : LUInv n n A X π n)
    (hd : ∀ c, c < n → X c c ≠ 0) (hl : ∀ r c, c + kl < r → A r c = 0) (hu : ∀ r c, r + ku < c → A r c = 0)
    {j c : Nat} (hj : j < n) (hc : c < n) (hjc : j + kl + ku < c) : X j c = 0 := by
  have hA : ∀ r c, r < n → c < n → A (π r) c = luE X r c := fun r c hr hc => h.done (by omega) hr hc
  -- rows that come from far below start late
  have h1 : ∀ r, r < n → ∀ l, l < r → l + kl < π r → X r l = 0 := by
    intro r hr l
    induction l using Nat.strong_induction_on with
    | _ l ih =>
      intro hlr hpl
      have e := hA r l hr (by omega)
      rw [hl _ _ hpl, luE, if_neg (by omega), add_zero, Nat.min_eq_right (by omega), sum_range_succ,
        sum_eq_zero (fun i hi => by
          rw [mem_range] at hi
          rw [ih i hi (by omega) (by omega), zero_mul]), zero_add] at e
      rcases mul_eq_zero.mp e.symm with e | e
      · exact e
      · exact absurd e (hd l (by omega))
  have h2 : ∀ r, r < n → π r ≤ r + kl := by
    intro r hr
    by_contra hlt
    have e := hA r r hr hr
    rw [hl _ _ (by omega), luE, if_pos le_rfl, Nat.min_eq_left (by omega), sum_eq_zero (fun i hi => by
          rw [mem_range] at hi
          rw [h1 r hr i hi (by omega), zero_mul]), zero_add] at e
    exact hd r hr e.symm
  induction j using Nat.strong_induction_on with
  | _ j ih =>
    have e := hA j c hj hc
    have := h2 j hj
    rw [hu _ _ (by omega), luE, if_pos (by omega), sum_eq_zero (fun i hi => by
          rw [mem_range] at hi
          rw [ih i (by omega) (by omega) (by omega), mul_zero]), zero_add] at e
    exact e.symm

/-! ### Forward solve with delayed interchanges -/

/-- `K` columns of the unit lower factor have been applied. -/
def FwInv (n : Nat) (p lz : Nat → Nat) (X : Nat → Nat → α) (y0 : Nat → α) (K : Nat) (y : Nat → α) : Prop :=
  ∀ r, r < n → y0 (perm p 0 K r) = ∑ l ∈ range (min K r), lazyM p lz K X r l * y l + y r

theorem FwInv.init (n : Nat) (p lz : Nat → Nat) (X : Nat → Nat → α) (y0 : Nat → α) :
    FwInv n p lz X y0 0 y0 := by intro r _; simp [perm]

theorem FwInv.step {n K K' : Nat} {p lz : Nat → Nat} {X : Nat → Nat → α} {y0 y y' : Nat → α}
    (h : FwInv n p lz X y0 K y) (hKK : K ≤ K') (hKn : K' ≤ n) (hp : ∀ i, i < K' → i ≤ p i ∧ p i < n)
    (hlz : ∀ c, c < K → lz c ≤ K) (hlz' : ∀ c, K ≤ c → c < K' → K' ≤ lz c)
    (htop : ∀ r, r < K → y' r = y r)
    (hrest : ∀ r, K ≤ r → r < n → y (perm p K (K' - K) r) =
      ∑ l ∈ Ico K (min r K'), X r l * y' l + y' r) : FwInv n p lz X y0 K' y' := by
  have hpp : perm p 0 K' = perm p 0 K * perm p K (K' - K) := by
    have := perm_add p 0 K (K' - K)
    rwa [Nat.zero_add, Nat.add_sub_cancel' hKK] at this
  have hold : ∀ r c, c < K → lazyM p lz K' X r c = lazyM p lz K X (perm p K (K' - K) r) c := by
    intro r c hc
    have h1 := hlz c hc
    have := perm_add p (lz c) (K - lz c) (K' - K)
    rw [show K - lz c + (K' - K) = K' - lz c by omega, Nat.add_sub_cancel' h1] at this
    unfold lazyM
    rw [if_pos (by omega), if_pos hc, this, Equiv.Perm.mul_apply]
  have hnew : ∀ r c, K ≤ c → c < K' → lazyM p lz K' X r c = X r c := by
    intro r c h1 h2
    unfold lazyM
    rw [if_pos h2, Nat.sub_eq_zero_of_le (hlz' c h1 h2)]; rfl
  intro r hr
  rw [hpp, Equiv.Perm.mul_apply]
  rcases Nat.lt_or_ge r K with hrK | hrK
  · have hs : perm p K (K' - K) r = r := perm_fix (fun i _ h2 => (hp i (by omega)).1) hrK
    rw [hs, h r hr, Nat.min_eq_right (by omega), Nat.min_eq_right (by omega), htop r hrK]
    congr 1
    refine sum_congr rfl fun l hl => ?_
    rw [mem_range] at hl
    rw [hold r l (by omega), hs, htop l (by omega)]
  · obtain ⟨s1, s2⟩ := perm_range (p := p) (lo := K) (n := K' - K) (m := n)
      (fun i _ h2 => hp i (by omega)) hrK hr
    rw [h _ s2, Nat.min_eq_left s1, hrest r hrK hr, ← add_assoc]
    congr 1
    rw [Nat.min_comm K' r, ← sum_range_add_sum_Ico _ (show K ≤ min r K' by omega)]
    congr 1
    · refine sum_congr rfl fun l hl => ?_
      rw [mem_range] at hl
      rw [hold r l hl, htop l hl]
    · refine sum_congr rfl fun l hl => ?_
      rw [mem_Ico] at hl
      rw [hnew r l hl.1 (by omega)]

/-- All columns applied. -/
theorem FwInv.done {n : Nat} {p lz : Nat → Nat} {X : Nat → Nat → α} {y0 y : Nat → α}
    (h : FwInv n p lz X y0 n y) {r : Nat} (hr : r < n) :
    y0 (perm p 0 n r) = ∑ l ∈ range r, lazyM p lz n X r l * y l + y r := by
  have := h r hr
  rwa [Nat.min_eq_right (by omega)] at this

/-! ### Backward solve with the transposed factor and delayed interchanges -/

/-- Columns `≥ K` of the unit lower factor have been applied, transposed (`op` is the identity
or the conjugation). -/
def BwInv (n : Nat) (op : α → α) (p : Nat → Nat) (L : Nat → Nat → α) (w : Nat → α) (K : Nat) (v : Nat → α) : Prop :=
  (∀ l, K ≤ l → l < n → w l = ∑ r ∈ Ico (l + 1) n, op (L r l) * v (perm p K (n - K) r) + v (perm p K (n - K) l)) ∧
  ∀ l, l < K → v l = w l

theorem BwInv.init (n : Nat) (op : α → α) (p : Nat → Nat) (L : Nat → Nat → α) (w : Nat → α) :
    BwInv n op p L w n w := ⟨fun l h1 h2 => by omega, fun _ _ => rfl⟩

omit [Field α] in
theorem sum_Ico_perm {β : Type v} [AddCommMonoid β] {lo n : Nat} {ρ : Equiv.Perm Nat}
    (h : ∀ r, lo ≤ r → r < n → lo ≤ ρ r ∧ ρ r < n) (hi : ∀ r, lo ≤ r → r < n → lo ≤ ρ.symm r ∧ ρ.symm r < n)
    (f : Nat → β) : ∑ r ∈ Ico lo n, f (ρ r) = ∑ r ∈ Ico lo n, f r := by
  refine sum_bij' (fun r _ => ρ r) (fun r _ => ρ.symm r) ?_ ?_ ?_ ?_ ?_
  · intro r hr; rw [mem_Ico] at hr ⊢; exact h r hr.1 hr.2
  · intro r hr; rw [mem_Ico] at hr ⊢; exact hi r hr.1 hr.2
  · intro r _; exact ρ.symm_apply_apply r
  · intro r _; exact ρ.apply_symm_apply r
  · intro r _; rfl

/-- The inverse of a product of interchanges stays in the range, too. -/
theorem perm_range_symm {p : Nat → Nat} {lo n m : Nat} (h : ∀ i, lo ≤ i → i < lo + n → i ≤ p i ∧ p i < m)
    (hm : lo + n ≤ m) {r : Nat} (hr : lo ≤ r) (hrm : r < m) :
    lo ≤ (perm p lo n).symm r ∧ (perm p lo n).symm r < m := by
  constructor
  · by_contra hlt
    have := perm_fix (fun i h1 h2 => (h i h1 h2).1) (Nat.lt_of_not_le hlt)
    rw [Equiv.apply_symm_apply] at this
    omega
  · by_contra hlt
    have := perm_ge h hm (Nat.le_of_not_lt hlt)
    rw [Equiv.apply_symm_apply] at this
    omega

theorem perm_fix_symm {p : Nat → Nat} {lo n : Nat} (h : ∀ i, lo ≤ i → i < lo + n → i ≤ p i)
    {r : Nat} (hr : r < lo) : (perm p lo n).symm r = r := by
  rw [Equiv.symm_apply_eq]; exact (perm_fix h hr).symm

theorem BwInv.step {n K K' : Nat} {op : α → α} {p : Nat → Nat} {L X : Nat → Nat → α} {w v v1 v2 : Nat → α}
    (h : BwInv n op p L w K' v) (hKK : K ≤ K') (hKn : K' ≤ n) (hp : ∀ i, i < n → i ≤ p i ∧ p i < n)
    -- the delayed interchanges of the block
    (hL : ∀ r c, K ≤ c → c < K' → c < r → r < n → L r c = X (perm p K' (n - K') r) c)
    -- the block is solved
    (hblk : ∀ l, K ≤ l → l < K' → w l = ∑ r ∈ Ico (l + 1) n, op (X r l) * v1 r + v1 l)
    (hout : ∀ l, l < n → ¬ (K ≤ l ∧ l < K') → v1 l = v l)
    -- its interchanges are undone
    (hsw : ∀ r, r < n → v2 r = v1 ((perm p K (K' - K)).symm r)) : BwInv n op p L w K v2 := by
  have hpp : perm p K (n - K) = perm p K (K' - K) * perm p K' (n - K') := by
    have := perm_add p K (K' - K) (n - K')
    rwa [show K' - K + (n - K') = n - K by omega, Nat.add_sub_cancel' hKK] at this
  have hrho : ∀ r, K' ≤ r → r < n → K' ≤ perm p K' (n - K') r ∧ perm p K' (n - K') r < n :=
    fun r h1 h2 => perm_range (fun i _ h3 => hp i (by omega)) h1 h2
  have hrhof : ∀ r, r < K' → perm p K' (n - K') r = r := fun r hr => perm_fix (fun i _ h3 => (hp i (by omega)).1) hr
  have hrho' : ∀ r, r < n → perm p K' (n - K') r < n := by
    intro r hr
    rcases Nat.lt_or_ge r K' with h1 | h1
    · rw [hrhof r h1]; exact hr
    · exact (hrho r h1 hr).2
  have hsig : ∀ r, r < n → K ≤ r → perm p K (K' - K) r < n := fun r h1 h2 =>
    (perm_range (fun i _ h3 => hp i (by omega)) h2 h1).2
  have hv2 : ∀ r, K ≤ r → r < n → v2 (perm p K (n - K) r) = v1 (perm p K' (n - K') r) := by
    intro r h1 h2
    rw [hpp, Equiv.Perm.mul_apply]
    have : K ≤ perm p K' (n - K') r := by
      rcases Nat.lt_or_ge r K' with h3 | h3
      · rw [hrhof r h3]; exact h1
      · have := (hrho r h3 h2).1; omega
    rw [hsw _ (hsig _ (hrho' r h2) this), Equiv.symm_apply_apply]
  refine ⟨?_, ?_⟩
  · intro l h1 h2
    rw [hv2 l h1 h2]
    rcases Nat.lt_or_ge l K' with h3 | h3
    · rw [hblk l h1 h3, hrhof l h3]
      congr 1
      have e : ∑ r ∈ Ico (l + 1) n, op (L r l) * v2 (perm p K (n - K) r) =
          ∑ r ∈ Ico (l + 1) n, op (X (perm p K' (n - K') r) l) * v1 (perm p K' (n - K') r) := by
        refine sum_congr rfl fun r hr => ?_
        rw [mem_Ico] at hr
        rw [hv2 r (by omega) hr.2, hL r l h1 h3 (by omega) hr.2]
      rw [e]
      refine (sum_Ico_perm (ρ := perm p K' (n - K')) ?_ ?_ (fun r => op (X r l) * v1 r)).symm
      · intro r a1 a2
        rcases Nat.lt_or_ge r K' with h4 | h4
        · rw [hrhof r h4]; exact ⟨a1, a2⟩
        · have := hrho r h4 a2; omega
      · intro r a1 a2
        rcases Nat.lt_or_ge r K' with h4 | h4
        · rw [perm_fix_symm (fun i _ h3 => (hp i (by omega)).1) h4]; exact ⟨a1, a2⟩
        · have := perm_range_symm (p := p) (lo := K') (n := n - K') (m := n)
            (fun i _ h3 => hp i (by omega)) (by omega) h4 a2
          omega
    · have e : ∀ r, K' ≤ r → r < n → v1 (perm p K' (n - K') r) = v (perm p K' (n - K') r) := by
        intro r a1 a2
        have := hrho r a1 a2
        exact hout _ this.2 (by omega)
      rw [h.1 l h3 h2, e l h3 h2]
      congr 1
      refine sum_congr rfl fun r hr => ?_
      rw [mem_Ico] at hr
      rw [hv2 r (by omega) hr.2, e r (by omega) hr.2]
  · intro l hl
    rcases Nat.lt_or_ge l n with h1 | h1
    · rw [hsw l h1, perm_fix_symm (fun i _ h3 => (hp i (by omega)).1) hl, hout l h1 (by omega)]
      exact h.2 l (by omega)
    · omega

end Verif.LU

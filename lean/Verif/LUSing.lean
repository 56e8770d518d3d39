/-
Factors as matrices, and linear dependence of columns when elimination stops.
Mathematics only, no program text.
-/
import Verif.Geswp

namespace Verif.LU

open Finset Verif.Tile

universe v

section
variable {α : Type v} [Field α]

/-- The unit lower triangular factor stored below the diagonal. -/
def luL (X : Nat → Nat → α) (r l : Nat) : α := if l < r then X r l else if l = r then 1 else 0

/-- The upper triangular factor stored on and above the diagonal. -/
def luU (X : Nat → Nat → α) (l c : Nat) : α := if l ≤ c then X l c else 0

/-- One entry of the product of the factors. -/
theorem sum_luLU (X : Nat → Nat → α) (r c K : Nat) :
    ∑ l ∈ range K, luL X r l * luU X l c =
      ∑ l ∈ range (min K (min r (c + 1))), X r l * X l c + if r ≤ c ∧ r < K then X r c else 0 := by
  have h1 : ∀ l, luL X r l * luU X l c =
      (if l < min r (c + 1) then X r l * X l c else 0) + if l = r then (if r ≤ c then X r c else 0) else 0 := by
    intro l
    unfold luL luU
    by_cases h1 : l < r
    · by_cases h2 : l ≤ c
      · rw [if_pos h1, if_pos h2, if_pos (by omega), if_neg (by omega), add_zero]
      · rw [if_neg h2, mul_zero, if_neg (show ¬ l < min r (c + 1) by omega), if_neg (show ¬ l = r by omega), add_zero]
    · rw [if_neg h1, if_neg (show ¬ l < min r (c + 1) by omega), zero_add]
      by_cases h3 : l = r
      · subst h3; rw [if_pos rfl, if_pos rfl, one_mul]
      · rw [if_neg h3, if_neg h3, zero_mul]
  rw [sum_congr rfl fun l _ => h1 l, sum_add_distrib]
  congr 1
  · rw [← sum_filter]
    refine sum_congr ?_ fun _ _ => rfl
    ext l; simp only [mem_filter, mem_range]; omega
  · rw [sum_ite_eq' (range K) r]
    simp only [mem_range]
    by_cases h : r < K <;> simp [h]

theorem luE_prod (X : Nat → Nat → α) {m n r c : Nat} (hr : r < m) (hc : c < n) :
    luE X r c = ∑ l ∈ range (min m n), luL X r l * luU X l c := by
  rw [sum_luLU X, luE]
  congr 1
  · rw [show min (min m n) (min r (c + 1)) = min r (c + 1) by omega]
  · by_cases h : r ≤ c
    · rw [if_pos h, if_pos ⟨h, by omega⟩]
    · rw [if_neg h, if_neg (fun h' => h h'.1)]

theorem luL_inj (X : Nat → Nat → α) {t : Nat} {y : Nat → α}
    (h : ∀ r, r < t → ∑ l ∈ range t, luL X r l * y l = 0) : ∀ r, r < t → y r = 0 := by
  intro r
  induction r using Nat.strong_induction_on with
  | _ r ih =>
    intro hr
    have := h r hr
    rw [sum_eq_single r] at this
    · simpa [luL] using this
    · intro l hl hne
      rw [mem_range] at hl
      by_cases h1 : l < r
      · rw [ih l h1 hl, mul_zero]
      · simp [luL, h1, hne]
    · intro hn; simp at hn; omega

theorem luU_solve (X : Nat → Nat → α) {t : Nat} (hd : ∀ c, c < t → X c c ≠ 0) (u : Nat → α) :
    ∃ x : Nat → α, ∀ l, l < t → ∑ c ∈ range t, luU X l c * x c = u l := by
  induction t generalizing u with
  | zero => exact ⟨fun _ => 0, fun l hl => by omega⟩
  | succ t ih =>
    obtain ⟨x, hx⟩ := ih (fun c hc => hd c (by omega)) fun l => u l - X l t * (u t / X t t)
    refine ⟨fun c => if c < t then x c else u t / X t t, fun l hl => ?_⟩
    dsimp only
    rw [sum_range_succ, if_neg (lt_irrefl t), sum_congr rfl fun c hc => by rw [if_pos (mem_range.mp hc)]]
    rcases Nat.lt_or_ge l t with h | h
    · rw [hx l h]
      simp only [luU, if_pos (show l ≤ t by omega)]
      ring
    · have : l = t := by omega
      subst this
      rw [sum_eq_zero, zero_add, luU, if_pos (le_refl _), mul_div_cancel₀ _ (hd l (by omega))]
      intro c hc
      rw [mem_range] at hc
      rw [luU, if_neg (by omega), zero_mul]

theorem luU_inj (X : Nat → Nat → α) {t : Nat} (hd : ∀ c, c < t → X c c ≠ 0) {x : Nat → α}
    (h : ∀ l, l < t → ∑ c ∈ range t, luU X l c * x c = 0) : ∀ c, c < t → x c = 0 := by
  have key : ∀ d c, c < t → t - c ≤ d → x c = 0 := by
    intro d
    induction d with
    | zero => intro c h1 h2; omega
    | succ d ih =>
      intro c hc hd'
      have := h c hc
      rw [sum_eq_single c] at this
      · rw [luU, if_pos (le_refl _)] at this
        exact (mul_eq_zero.mp this).resolve_left (hd c hc)
      · intro l hl hne
        rw [mem_range] at hl
        by_cases h1 : c < l
        · rw [ih l hl (by omega), mul_zero]
        · rw [luU, if_neg (by omega), zero_mul]
      · intro hn; simp at hn; omega
  exact fun c hc => key t c hc (by omega)

theorem perm_inv_lt {q : Nat → Nat} {t m : Nat} (htm : t ≤ m) (hq : ∀ i, i < t → q i < m) {r : Nat} (hr : r < m) :
    (perm q 0 t)⁻¹ r < m := by
  rw [← permL_range', ← permL_reverse]
  refine (permL_mem (lo := 0) ?_ ?_ ⟨Nat.zero_le _, hr⟩).2
  · intro i hi; simp [List.mem_range'_1] at hi; omega
  · intro i hi; simp [List.mem_range'_1] at hi; exact ⟨Nat.zero_le _, hq i hi⟩

theorem perm_lt {q : Nat → Nat} {t m : Nat} (htm : t ≤ m) (hq : ∀ i, i < t → q i < m) {r : Nat} (hr : r < m) :
    perm q 0 t r < m := by
  rw [← permL_range']
  refine (permL_mem (lo := 0) ?_ ?_ ⟨Nat.zero_le _, hr⟩).2
  · intro i hi; simp [List.mem_range'_1] at hi; omega
  · intro i hi; simp [List.mem_range'_1] at hi; exact ⟨Nat.zero_le _, hq i hi⟩

/-- The first `t` columns of the `m`-row matrix `A` are linearly independent. -/
def ColsIndep (m t : Nat) (A : Nat → Nat → α) : Prop :=
  ∀ x : Nat → α, (∀ r, r < m → ∑ c ∈ range t, A r c * x c = 0) → ∀ c, c < t → x c = 0

/-- Column `t` is a linear combination of the columns before it. -/
def ColDep (m t : Nat) (A : Nat → Nat → α) : Prop :=
  ∃ x : Nat → α, ∀ r, r < m → A r t = ∑ c ∈ range t, A r c * x c

theorem ColDep.not_indep {m t t' : Nat} {A : Nat → Nat → α} (h : ColDep m t A) (ht : t < t') :
    ¬ ColsIndep m t' A := by
  intro hi
  obtain ⟨x, hx⟩ := h
  have := hi (fun c => if c < t then x c else if c = t then -1 else 0) (fun r hr => ?_) t ht
  · rw [if_neg (by omega), if_pos rfl] at this
    exact one_ne_zero (neg_eq_zero.mp this)
  · have h1 : ∑ c ∈ range t', A r c * (if c < t then x c else if c = t then -1 else 0) =
        ∑ c ∈ range (t + 1), A r c * (if c < t then x c else if c = t then -1 else 0) := by
      symm
      refine sum_subset (fun c hc => ?_) (fun c hc hn => ?_)
      · rw [mem_range] at *; omega
      · rw [mem_range] at *
        rw [if_neg (by omega), if_neg (by omega), mul_zero]
    rw [h1, sum_range_succ, if_neg (by omega), if_pos rfl, sum_congr rfl fun c hc => by
      rw [if_pos (mem_range.mp hc)], ← hx r hr]
    ring

theorem indep_of_lu {m t : Nat} {A X : Nat → Nat → α} {π : Equiv.Perm Nat} (hπ : ∀ r, r < m → π r < m)
    (htm : t ≤ m) (h : ∀ r c, r < m → c < t → A (π r) c = ∑ l ∈ range t, luL X r l * luU X l c)
    (hd : ∀ c, c < t → X c c ≠ 0) : ColsIndep m t A := by
  intro x hx
  refine luU_inj X hd (fun l hl => ?_)
  refine luL_inj X (y := fun l => ∑ c ∈ range t, luU X l c * x c) (fun r hr => ?_) l hl
  have h1 := hx (π r) (hπ r (by omega))
  rw [← h1]
  simp only [mul_sum]
  rw [sum_comm]
  refine sum_congr rfl fun c hc => ?_
  rw [h r c (by omega) (mem_range.mp hc), sum_mul]
  refine sum_congr rfl fun l _ => ?_
  ring

/-- Where elimination stops, the columns before are independent and the column depends on them. -/
theorem FailAt.cols {m t : Nat} {A : Nat → Nat → α} (h : FailAt m A t) : ColsIndep m t A ∧ ColDep m t A := by
  obtain ⟨q, Y, hq, htm, hY, hd, hz⟩ := h
  have hp : ∀ r c, r < m → c < t + 1 → A (perm q 0 t r) c = ∑ l ∈ range t, luL Y r l * luU Y l c := by
    intro r c hr hc
    rw [hY r c hr hc, sum_luLU Y]
    congr 1
    by_cases h1 : r ≤ c ∧ r < t
    · rw [if_pos h1, if_pos (Or.inl h1.1)]
    · rw [if_neg h1]
      split
      · have : c = t := by omega
        subst this
        exact hz r (by omega) hr
      · rfl
  refine ⟨indep_of_lu (fun r hr => perm_lt (by omega) (fun i hi => (hq i hi).2) hr) (by omega)
    (fun r c hr hc => hp r c hr (by omega)) hd, ?_⟩
  obtain ⟨x, hx⟩ := luU_solve Y hd (fun l => luU Y l t)
  refine ⟨x, fun r hr => ?_⟩
  have hr' := perm_inv_lt (q := q) (t := t) (m := m) (by omega) (fun i hi => (hq i hi).2) hr
  have e : perm q 0 t ((perm q 0 t)⁻¹ r) = r := by simp
  have h1 := fun c hc => hp _ c hr' hc
  simp only [e] at h1
  have h2 : ∑ c ∈ range t, A r c * x c =
      ∑ c ∈ range t, ∑ l ∈ range t, luL Y ((perm q 0 t)⁻¹ r) l * luU Y l c * x c :=
    sum_congr rfl fun c hc => by rw [h1 c (by rw [mem_range] at hc; omega), sum_mul]
  rw [h1 t (by omega), h2, sum_comm]
  refine sum_congr rfl fun l hl => ?_
  rw [← hx l (mem_range.mp hl), mul_sum]
  refine sum_congr rfl fun c _ => ?_
  ring

end

end Verif.LU

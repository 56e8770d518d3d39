/-
The `depend` clauses of `plasma_pzhetrf_aasen` order all conflicting tasks.
-/
import Verif.AasenCov
import Verif.Phase

namespace Verif.Aasen

open Verif.Tile Verif.Layout Verif.LU Verif.Panel Verif.Heswp Finset

set_option linter.unusedSectionVars false

universe u v w

section
variable {M : Type u} [DecidableEq M] {α : Type v} [Field α] [StarRing α] [DecidableEq α] {γ : Type w} [LinearOrder γ]
  {E : IntCode α} {mag : α → γ} {dv : α → α → α} {big : α → Bool} {z : AC} {Z : AM M} {k : Nat}

variable (E mag dv big z Z) in
/-- There is a path of dependences between two tasks. -/
def RR (x y : ALab) : Prop := Reach (aLabs (α := α) dv z Z) aLt (aTask E mag dv big z Z) x y

theorem RR.trans {x y w : ALab} (h1 : RR E mag dv big z Z x y) (h2 : RR E mag dv big z Z y w) : RR E mag dv big z Z x w := Relation.TransGen.trans h1 h2

theorem RR.edge {x y : ALab} (hx : x ∈ aLabs (α := α) dv z Z) (hy : y ∈ aLabs (α := α) dv z Z) (hlt : aLt x y) {a : M × Nat × Nat} {u v : Bool}
    (h1 : (a, u) ∈ (aTask E mag dv big z Z x).deps) (h2 : (a, v) ∈ (aTask E mag dv big z Z y).deps) (h : u = true ∨ v = true) :
    RR E mag dv big z Z x y := Relation.TransGen.single ⟨hx, hy, hlt, Or.inr ⟨_, h1, _, h2, rfl, h⟩⟩

/-! Labels -/

section mem
variable (z Z dv)
theorem l4 (hk : k + 1 < z.mt) : ((k, 4, 0) : ALab) ∈ aLabs (α := α) dv z Z := mem_aLabs.mpr ⟨by omega, Or.inr (Or.inr ⟨hk, by omega⟩)⟩
theorem l9 (hk : k + 1 < z.mt) : ((k, 9, 0) : ALab) ∈ aLabs (α := α) dv z Z := mem_aLabs.mpr ⟨by omega, Or.inr (Or.inr ⟨hk, by omega⟩)⟩
theorem l5 (hk : k + 1 < z.mt) {n : Nat} (h0 : 0 < n) (hn : n ≤ k) : ((k, 5, n) : ALab) ∈ aLabs (α := α) dv z Z :=
  mem_aLabs.mpr ⟨by omega, Or.inr (Or.inr ⟨hk, by omega⟩)⟩
theorem l1 (hk : k + 1 < z.mt) {n : Nat} (h0 : 0 < n) (hn : n ≤ k) : ((k, 1, n) : ALab) ∈ aLabs (α := α) dv z Z :=
  mem_aLabs.mpr ⟨by omega, Or.inr (Or.inr ⟨hk, by omega⟩)⟩
theorem l2 (hk : k + 1 < z.mt) (h0 : 0 < k) (h5 : useW5 z k) {i : Nat} (hi : i < (tree (w5num z k)).length) : ((k, 2, i) : ALab) ∈ aLabs (α := α) dv z Z :=
  mem_aLabs.mpr ⟨by omega, Or.inr (Or.inr ⟨hk, Or.inr (Or.inl ⟨rfl, h0, h5, hi⟩)⟩)⟩
theorem l3 (hk : k + 1 < z.mt) (h0 : 0 < k) (h5 : useW5 z k) : ((k, 3, 0) : ALab) ∈ aLabs (α := α) dv z Z :=
  mem_aLabs.mpr ⟨by omega, Or.inr (Or.inr ⟨hk, Or.inr (Or.inr (Or.inl ⟨rfl, h0, h5, rfl⟩))⟩)⟩
end mem

/-! Dependences -/

theorem d1w (h5 : useW5 z k) (n : Nat) : (aTask E mag dv big z Z (k, 1, n)).deps =
    [(Z.a k (n - 1), false), (Z.h n, false), (Z.w5 z (((n - 1) % w5num z k) * (z.mt - k - 1)), true)] := by
  show (if useW5 z k then w5MT z Z k n else colT z Z k n).deps = _
  rw [if_pos h5]; rfl
theorem d1c (h5 : ¬ useW5 z k) (n : Nat) : (aTask E mag dv big z Z (k, 1, n)).deps =
    [(Z.a k (n - 1), false), (Z.a (z.mt - 1) (n - 1), false), (Z.h n, false), (Z.a k k, false), (Z.a (z.mt - 1) k, false), (Z.a (k + 1) k, true)] := by
  show (if useW5 z k then w5MT z Z k n else colT z Z k n).deps = _
  rw [if_neg h5]; rfl
theorem d1a (n : Nat) : (Z.a k (n - 1), false) ∈ (aTask E mag dv big z Z (k, 1, n)).deps := by
  by_cases h5 : useW5 z k
  · rw [d1w h5]; simp
  · rw [d1c h5]; simp
theorem d1h (n : Nat) : (Z.h n, false) ∈ (aTask E mag dv big z Z (k, 1, n)).deps := by
  by_cases h5 : useW5 z k
  · rw [d1w h5]; simp
  · rw [d1c h5]; simp
theorem d2 (i : Nat) : (aTask E mag dv big z Z (k, 2, i)).deps =
    [(Z.w5 z ((trp z k i).2 * (z.mt - k - 1)), false), (Z.w5 z ((trp z k i).1 * (z.mt - k - 1)), true)] := rfl
theorem d3 : (aTask E mag dv big z Z (k, 3, 0)).deps =
    [(Z.w5 z 0, false), (Z.a k k, false), (Z.a (z.mt - 1) k, false), (Z.a (k + 1) k, true)] := rfl
theorem d4 : (aTask E mag dv big z Z (k, 4, 0)).deps = [(Z.a (k + 1) k, true), (Z.a (z.mt - 1) k, true), (Z.p (k + 1), true)] := rfl
theorem d5 (n : Nat) : (aTask E mag dv big z Z (k, 5, n)).deps = [(Z.p (k + 1), false), (Z.a (k + 1) (n - 1), true), (Z.a (z.mt - 1) (n - 1), true)] := rfl
theorem d6 : (aTask E mag dv big z Z (k, 6, 0)).deps = [(Z.a (k + 1) k, false), (Z.a (k + 1) k, false), (Z.t z (k + 1) k, true)] := rfl
theorem d9 : (aTask E mag dv big z Z (k, 9, 0)).deps = [(Z.p (k + 1), false), (Z.a (k + 1) (k + 1), true), (Z.a (z.mt - 1) (k + 1), true)] := rfl

theorem lt_st {k st st' i i' : Nat} (h : st < st') : aLt (k, st, i) (k, st', i') := Or.inr ⟨rfl, Or.inl h⟩
theorem lt_k {k k' st st' i i' : Nat} (h : k < k') : aLt (k, st, i) (k', st', i') := Or.inl h

/-! ### Paths through the panels -/

theorem p_sym (hk : k + 1 < z.mt) : RR E mag dv big z Z (k, 4, 0) (k, 9, 0) :=
  RR.edge (a := Z.p (k + 1)) (u := true) (v := false) (l4 dv z Z hk) (l9 dv z Z hk) (lt_st (by omega)) (by rw [d4]; simp) (by rw [d9]; simp) (Or.inl rfl)
theorem p_row (hk : k + 1 < z.mt) {n : Nat} (h0 : 0 < n) (hn : n ≤ k) : RR E mag dv big z Z (k, 4, 0) (k, 5, n) :=
  RR.edge (a := Z.p (k + 1)) (u := true) (v := false) (l4 dv z Z hk) (l5 dv z Z hk h0 hn) (lt_st (by omega)) (by rw [d4]; simp) (by rw [d5]; simp) (Or.inl rfl)
theorem sym_p (hk : k + 1 + 1 < z.mt) : RR E mag dv big z Z (k, 9, 0) (k + 1, 4, 0) :=
  RR.edge (a := Z.a (z.mt - 1) (k + 1)) (u := true) (v := true) (l9 dv z Z (by omega)) (l4 dv z Z hk) (lt_k (by omega)) (by rw [d9]; simp) (by rw [d4]; simp) (Or.inl rfl)

theorem p_p {k' : Nat} (h : k < k') (hk : k' + 1 < z.mt) : RR E mag dv big z Z (k, 4, 0) (k', 4, 0) := by
  obtain ⟨d, rfl⟩ : ∃ d, k' = k + d + 1 := ⟨k' - k - 1, by omega⟩
  clear h
  induction d with
  | zero => exact (p_sym (by omega)).trans (sym_p hk)
  | succ d ih => exact (ih (by omega)).trans ((p_sym (k := k + d + 1) (by omega)).trans (sym_p hk))

/-- A panel, or a later one. -/
theorem p_le {x : ALab} {k' : Nat} (hx : RR E mag dv big z Z x (k, 4, 0)) (h : k ≤ k') (hk : k' + 1 < z.mt) : RR E mag dv big z Z x (k', 4, 0) := by
  rcases Nat.lt_or_ge k k' with h' | h'
  · exact hx.trans (p_p h' hk)
  · obtain rfl : k = k' := by omega
    exact hx

theorem add_p (hk : k + 1 < z.mt) (h0 : 0 < k) (h5 : useW5 z k) : RR E mag dv big z Z (k, 3, 0) (k, 4, 0) :=
  RR.edge (a := Z.a (k + 1) k) (u := true) (v := true) (l3 dv z Z hk h0 h5) (l4 dv z Z hk) (lt_st (by omega)) (by rw [d3]; simp) (by rw [d4]; simp) (Or.inl rfl)

theorem sum_add (hk : k + 1 < z.mt) (h0 : 0 < k) (h5 : useW5 z k) {i : Nat} (hi : i < (tree (w5num z k)).length) :
    RR E mag dv big z Z (k, 2, i) (k, 3, 0) := by
  obtain ⟨e, he⟩ : ∃ e, (tree (w5num z k)).length - i = e := ⟨_, rfl⟩
  induction e using Nat.strong_induction_on generalizing i with
  | _ e ih =>
    have hp : (tree (w5num z k))[i]? = some (trp z k i) := by
      unfold trp; rw [List.getElem?_eq_getElem hi]; rfl
    by_cases h1 : (trp z k i).1 = 0
    · refine RR.edge (a := Z.w5 z 0) (u := true) (v := false) (l2 dv z Z hk h0 h5 hi) (l3 dv z Z hk h0 h5) (lt_st (by omega)) ?_ (by rw [d3]; simp) (Or.inl rfl)
      rw [d2, h1, Nat.zero_mul]; simp
    · obtain ⟨i', p', hlt, hi', hp'⟩ := (tree_next (w5num z k)).2 i _ hp h1
      have hl : i' < (tree (w5num z k)).length := (List.getElem?_eq_some_iff.mp hi').1
      have e2 : (trp z k i').2 = (trp z k i).1 := by rw [← hp']; unfold trp; rw [hi']; rfl
      refine RR.trans (RR.edge (a := Z.w5 z ((trp z k i).1 * (z.mt - k - 1))) (u := true) (v := false) (l2 dv z Z hk h0 h5 hi) (l2 dv z Z hk h0 h5 hl)
        (Or.inr ⟨rfl, Or.inr ⟨rfl, hlt⟩⟩) (by rw [d2]; simp) (by rw [d2, e2]; simp) (Or.inl rfl)) (ih _ (by omega) hl rfl)

theorem mul_add (hk : k + 1 < z.mt) (h0 : 0 < k) (h5 : useW5 z k) {n : Nat} (h1 : 0 < n) (hn : n ≤ k) :
    RR E mag dv big z Z (k, 1, n) (k, 3, 0) := by
  have hq := Nat.mod_lt (n - 1) (w5num_pos hk h0)
  by_cases hq0 : (n - 1) % w5num z k = 0
  · refine RR.edge (a := Z.w5 z 0) (u := true) (v := false) (l1 dv z Z hk h1 hn) (l3 dv z Z hk h0 h5) (lt_st (by omega)) ?_ (by rw [d3]; simp) (Or.inl rfl)
    rw [d1w h5, hq0, Nat.zero_mul]; simp
  · obtain ⟨i, p, hi, hp⟩ := (tree_next (w5num z k)).1 _ (Nat.pos_of_ne_zero hq0) hq
    have hl : i < (tree (w5num z k)).length := (List.getElem?_eq_some_iff.mp hi).1
    have e2 : (trp z k i).2 = (n - 1) % w5num z k := by rw [← hp]; unfold trp; rw [hi]; rfl
    refine RR.trans (RR.edge (a := Z.w5 z (((n - 1) % w5num z k) * (z.mt - k - 1))) (u := true) (v := false) (l1 dv z Z hk h1 hn) (l2 dv z Z hk h0 h5 hl)
        (lt_st (by omega)) (by rw [d1w h5]; simp) (by rw [d2, e2]; simp) (Or.inl rfl)) (sum_add hk h0 h5 hl)

/-- The tasks of the update of column `k` come before its panel. -/
theorem upd_p {st i : Nat} (hl : ((k, st, i) : ALab) ∈ aLabs (α := α) dv z Z) (h : st = 1 ∨ st = 2 ∨ st = 3) : RR E mag dv big z Z (k, st, i) (k, 4, 0) := by
  obtain ⟨hk, hm⟩ := mem_aLabs.mp hl
  rcases hm with hm | hm | ⟨hk1, hm⟩
  · omega
  · omega
  rcases hm with ⟨rfl, h1, h2⟩ | ⟨rfl, h0, h5, hi⟩ | ⟨rfl, h0, h5, rfl⟩ | hm
  · by_cases h5 : useW5 z k
    · exact (mul_add hk1 (by omega) h5 h1 h2).trans (add_p hk1 (by omega) h5)
    · exact RR.edge (a := Z.a (k + 1) k) (u := true) (v := true) hl (l4 dv z Z hk1) (lt_st (by omega)) (by rw [d1c h5]; simp) (by rw [d4]; simp) (Or.inl rfl)
  · exact (sum_add hk1 h0 h5 hi).trans (add_p hk1 h0 h5)
  · exact add_p hk1 h0 h5
  · omega

theorem row_p (hk : k + 1 + 1 < z.mt) {n : Nat} (h0 : 0 < n) (hn : n ≤ k) : RR E mag dv big z Z (k, 5, n) (k + 1, 4, 0) :=
  (RR.edge (a := Z.a (k + 1) (n - 1)) (u := true) (v := false) (l5 dv z Z (by omega) h0 hn) (l1 dv z Z hk h0 (by omega)) (lt_k (by omega))
    (by rw [d5]; simp) (d1a n) (Or.inl rfl)).trans (upd_p (l1 dv z Z hk h0 (by omega)) (by omega))

/-- Tasks that do not declare all their accesses. -/
def und (st : Nat) : Prop := st = 1 ∨ st = 2 ∨ st = 3 ∨ st = 4 ∨ st = 5 ∨ st = 9

/-- All these tasks come before the later panels. -/
theorem und_p {k' st i : Nat} (hl : ((k, st, i) : ALab) ∈ aLabs (α := α) dv z Z) (h : und st) (hk : k < k') (hk' : k' + 1 < z.mt) :
    RR E mag dv big z Z (k, st, i) (k', 4, 0) := by
  obtain ⟨hk0, hm⟩ := mem_aLabs.mp hl
  unfold und at h
  by_cases h1 : st = 1 ∨ st = 2 ∨ st = 3
  · exact (upd_p hl h1).trans (p_p hk hk')
  rcases hm with hm | hm | ⟨hk1, hm⟩
  · omega
  · omega
  by_cases h4 : st = 4
  · obtain ⟨rfl, rfl⟩ : st = 4 ∧ i = 0 := by omega
    exact p_p hk hk'
  by_cases h5 : st = 5
  · obtain ⟨rfl, g1, g2⟩ : st = 5 ∧ 0 < i ∧ i ≤ k := by omega
    exact p_le (row_p (by omega) g1 g2) (by omega) hk'
  · obtain ⟨rfl, rfl⟩ : st = 9 ∧ i = 0 := by omega
    exact p_le (sym_p (by omega)) (by omega) hk'

/-- And after the earlier ones. -/
theorem p_und {k' st i : Nat} (hl : ((k', st, i) : ALab) ∈ aLabs (α := α) dv z Z) (h : und st) (hk : k < k' ∨ k = k' ∧ (st = 5 ∨ st = 9)) :
    RR E mag dv big z Z (k, 4, 0) (k', st, i) := by
  obtain ⟨hk0, hm⟩ := mem_aLabs.mp hl
  unfold und at h
  rcases hm with hm | hm | ⟨hk1, hm⟩
  · omega
  · omega
  -- through the previous step
  have prev : ∀ y, k < k' → RR E mag dv big z Z (k' - 1, 4, 0) y → RR E mag dv big z Z (k, 4, 0) y := by
    intro y hk hy
    rcases Nat.lt_or_ge k (k' - 1) with h' | h'
    · exact (p_p h' (by omega)).trans hy
    · obtain rfl : k = k' - 1 := by omega
      exact hy
  have hmul : ∀ n, k < k' → 0 < n → n ≤ k' → RR E mag dv big z Z (k, 4, 0) (k', 1, n) := by
    intro n hk h1 h2
    apply prev _ hk
    have e : k' - 1 + 1 = k' := by omega
    by_cases hn : n = k'
    · refine RR.edge (a := Z.a k' (n - 1)) (u := true) (v := false) (l4 dv z Z (by omega)) (l1 dv z Z hk1 h1 h2) (lt_k (by omega)) ?_ (d1a n) (Or.inl rfl)
      rw [d4, e, hn]; simp
    · refine RR.trans (p_row (by omega) h1 (by omega)) (RR.edge (a := Z.a k' (n - 1)) (u := true) (v := false) (l5 dv z Z (by omega) h1 (by omega))
        (l1 dv z Z hk1 h1 h2) (lt_k (by omega)) ?_ (d1a n) (Or.inl rfl))
      rw [d5, e]; simp
  rcases hm with ⟨rfl, h1, h2⟩ | ⟨rfl, h0, h5, hi⟩ | ⟨rfl, h0, h5, rfl⟩ | ⟨rfl, rfl⟩ | ⟨rfl, h1, h2⟩ | hm
  · exact hmul i (by omega) h1 h2
  · have hp : (tree (w5num z k'))[i]? = some (trp z k' i) := by
      unfold trp; rw [List.getElem?_eq_getElem hi]; rfl
    have hlt := tree_lt (List.mem_of_getElem? hp)
    have hnk : w5num z k' ≤ k' := Nat.min_le_left _ _
    refine (hmul ((trp z k' i).1 + 1) (by omega) (by omega) (by omega)).trans ?_
    refine RR.edge (a := Z.w5 z ((trp z k' i).1 * (z.mt - k' - 1))) (u := true) (v := true) (l1 dv z Z hk1 (by omega) (by omega)) hl (lt_st (by omega)) ?_
      (by rw [d2]; simp) (Or.inl rfl)
    rw [d1w h5, Nat.add_sub_cancel, Nat.mod_eq_of_lt hlt.1]; simp
  · refine prev _ (by omega) ((p_sym (by omega)).trans ?_)
    have e : k' - 1 + 1 = k' := by omega
    refine RR.edge (a := Z.a k' k') (u := true) (v := false) (l9 dv z Z (by omega)) hl (lt_k (by omega)) ?_ (by rw [d3]; simp) (Or.inl rfl)
    rw [d9, e]; simp
  · exact p_p (by omega) hk1
  · rcases hk with hk | ⟨rfl, _⟩
    · exact (p_p hk hk1).trans (p_row hk1 h1 h2)
    · exact p_row hk1 h1 h2
  · obtain ⟨rfl, rfl⟩ : st = 9 ∧ i = 0 := by omega
    rcases hk with hk | ⟨rfl, _⟩
    · exact (p_p hk hk1).trans (p_sym hk1)
    · exact p_sym hk1

/-! ### Conflicts -/

theorem isW5_inj {p p' q : Nat} (h : isW5 z k p q) (h' : isW5 z k p' q) : p = p' := by
  obtain ⟨m, hm, e⟩ := h
  obtain ⟨m', hm', e'⟩ := h'
  have h1 : m + p * (z.mt - k - 1) = m' + p' * (z.mt - k - 1) := by omega
  have hd : 0 < z.mt - k - 1 := by omega
  have e1 : (m + p * (z.mt - k - 1)) / (z.mt - k - 1) = p := by rw [Nat.add_mul_div_right _ _ hd, Nat.div_eq_of_lt hm, Nat.zero_add]
  have e2 : (m' + p' * (z.mt - k - 1)) / (z.mt - k - 1) = p' := by rw [Nat.add_mul_div_right _ _ hd, Nat.div_eq_of_lt hm', Nat.zero_add]
  rw [← e1, h1, e2]

theorem isW5_ge {p q : Nat} (h : isW5 z k p q) : 1 + 4 * z.mt ≤ q := by
  obtain ⟨m, hm, e⟩ := h; omega

/-- Conflicts in the update of a column. -/
theorem upd_upd (hz : z.OK) (hZ : AMOK z Z) {st i st' i' : Nat} (hx : ((k, st, i) : ALab) ∈ aLabs (α := α) dv z Z)
    (hy : ((k, st', i') : ALab) ∈ aLabs (α := α) dv z Z) (h : st = 1 ∨ st = 2 ∨ st = 3) (h' : st' = 1 ∨ st' = 2 ∨ st' = 3) (hlt : aLt (k, st, i) (k, st', i'))
    (hc : TConflict (aTask E mag dv big z Z (k, st, i)) (aTask E mag dv big z Z (k, st', i'))) : RR E mag dv big z Z (k, st, i) (k, st', i') := by
  obtain ⟨hk0, hm⟩ := mem_aLabs.mp hx
  obtain ⟨-, hm'⟩ := mem_aLabs.mp hy
  have hcf := aTask_conf hz hZ hx hy hc
  by_cases h5 : useW5 z k
  swap
  · have e1 : st = 1 := by
      rcases hm with hm | hm | ⟨_, ⟨h1, _⟩ | ⟨_, _, h1, _⟩ | ⟨_, _, h1, _⟩ | hm⟩
      · omega
      · omega
      · exact h1
      · exact absurd h1 h5
      · exact absurd h1 h5
      · omega
    have e2 : st' = 1 := by
      rcases hm' with hm | hm | ⟨_, ⟨h1, _⟩ | ⟨_, _, h1, _⟩ | ⟨_, _, h1, _⟩ | hm⟩
      · omega
      · omega
      · exact h1
      · exact absurd h1 h5
      · exact absurd h1 h5
      · omega
    subst e1 e2
    exact RR.edge (a := Z.a (k + 1) k) (u := true) (v := true) hx hy hlt (by rw [d1c h5]; simp) (by rw [d1c h5]; simp) (Or.inl rfl)
  have hi3 : st = 3 → i = 0 := fun h => by
    rcases hm with hm | hm | ⟨_, hm⟩ <;> omega
  have hi3' : st' = 3 → i' = 0 := fun h => by
    rcases hm' with hm | hm | ⟨_, hm⟩ <;> omega
  have hi1 : st = 1 → i ≤ k := fun h => by
    rcases hm with hm | hm | ⟨_, hm⟩ <;> omega
  have hi1' : st' = 1 → i' ≤ k := fun h => by
    rcases hm' with hm | hm | ⟨_, hm⟩ <;> omega
  have key : ∀ (p : Nat) (u v : Bool), (Z.w5 z (p * (z.mt - k - 1)), u) ∈ (aTask E mag dv big z Z (k, st, i)).deps →
      (Z.w5 z (p * (z.mt - k - 1)), v) ∈ (aTask E mag dv big z Z (k, st', i')).deps → (u = true ∨ v = true) → RR E mag dv big z Z (k, st, i) (k, st', i') :=
    fun p u v h1 h2 h3 => RR.edge hx hy hlt h1 h2 h3
  have hA0 : ∀ m c, ((wA z (k, st, i) m c ∧ rA z (k, st', i') m c) ∨ (rA z (k, st, i) m c ∧ wA z (k, st', i') m c)) → False := by
    intro m c hh
    rcases h with rfl | rfl | rfl <;> rcases h' with rfl | rfl | rfl <;> simp only [wA, rA] at hh
    · rcases hh with ⟨⟨_, h, _⟩, _⟩ | ⟨_, ⟨_, h, _⟩⟩ <;> exact h h5
    · rcases hh with ⟨_, h⟩ | ⟨_, h⟩ <;> exact h
    · have := hi1 rfl
      rcases hh with ⟨⟨_, h, _⟩, _⟩ | ⟨⟨_, h⟩, hw⟩
      · exact h h5
      · rcases h with h | ⟨h, _⟩
        · have : 0 < i := by rcases hm with hm | hm | ⟨_, hm⟩ <;> omega
          omega
        · exact h h5
    · rcases hh with ⟨h, _⟩ | ⟨h, _⟩ <;> exact h
    · rcases hh with ⟨h, _⟩ | ⟨h, _⟩ <;> exact h
    · rcases hh with ⟨h, _⟩ | ⟨h, _⟩ <;> exact h
    · simp only [aLt] at hlt; omega
    · rcases hh with ⟨_, h⟩ | ⟨_, h⟩ <;> exact h
    · have := hi3 rfl; have := hi3' rfl; simp only [aLt] at hlt; omega
  rcases hcf with ⟨m, c, hh⟩ | ⟨q, hh⟩ | hh | hh
  · exact (hA0 m c (hh.imp (fun h => ⟨h.1, h.2.1⟩) id)).elim
  · have hh' : (wW z (k, st, i) q ∧ rW z (k, st', i') q) ∨ (rW z (k, st, i) q ∧ wW z (k, st', i') q) := by
      rcases hh with ⟨h1, h2, _⟩ | ⟨h1, h2, _⟩
      · exact Or.inl ⟨h1, h2⟩
      · exact Or.inr ⟨h1, h2⟩
    clear hh
    have wk : ∀ p, isW5 z k p q → q = 1 + i → i ≤ k → False := fun p h e1 e2 => by have := isW5_ge h; omega
    have wk' : ∀ p, isW5 z k p q → q = 1 + i' → i' ≤ k → False := fun p h e1 e2 => by have := isW5_ge h; omega
    rcases h with rfl | rfl | rfl <;> rcases h' with rfl | rfl | rfl <;> simp only [wW, rW] at hh'
    · have : isW5 z k ((i - 1) % w5num z k) q ∧ isW5 z k ((i' - 1) % w5num z k) q := by
        rcases hh' with ⟨⟨_, h1⟩, h2 | ⟨_, h2⟩⟩ | ⟨h2 | ⟨_, h2⟩, _, h1⟩
        · exact (wk' _ h1 h2 (hi1' rfl)).elim
        · exact ⟨h1, h2⟩
        · exact (wk _ h1 h2 (hi1 rfl)).elim
        · exact ⟨h2, h1⟩
      have e := isW5_inj this.1 this.2
      exact key ((i - 1) % w5num z k) true true (by rw [d1w h5]; simp) (by rw [d1w h5, ← e]; simp) (Or.inl rfl)
    · have : isW5 z k ((i - 1) % w5num z k) q ∧ (isW5 z k (trp z k i').1 q ∨ isW5 z k (trp z k i').2 q) := by
        rcases hh' with ⟨⟨_, h1⟩, h2⟩ | ⟨h2 | ⟨_, h2⟩, h1⟩
        · exact ⟨h1, h2⟩
        · exact (wk _ h1 h2 (hi1 rfl)).elim
        · exact ⟨h2, Or.inl h1⟩
      rcases this.2 with h2 | h2
      · have e := isW5_inj this.1 h2
        exact key ((i - 1) % w5num z k) true true (by rw [d1w h5]; simp) (by rw [d2, ← e]; simp) (Or.inl rfl)
      · have e := isW5_inj this.1 h2
        exact key ((i - 1) % w5num z k) true false (by rw [d1w h5]; simp) (by rw [d2, ← e]; simp) (Or.inl rfl)
    · obtain rfl := hi3' rfl
      rcases hh' with ⟨⟨_, h1⟩, h2⟩ | ⟨_, h⟩
      · have e := isW5_inj h1 h2
        exact key 0 true false (by rw [d1w h5, e]; simp) (by rw [d3, Nat.zero_mul]; simp) (Or.inl rfl)
      · exact h.elim
    · simp only [aLt] at hlt; omega
    · rcases hh' with ⟨h1, h2 | h2⟩ | ⟨h2 | h2, h1⟩
      · have e := isW5_inj h1 h2
        exact key (trp z k i).1 true true (by rw [d2]; simp) (by rw [d2, e]; simp) (Or.inl rfl)
      · have e := isW5_inj h1 h2
        exact key (trp z k i).1 true false (by rw [d2]; simp) (by rw [d2, e]; simp) (Or.inl rfl)
      · have e := isW5_inj h1 h2
        exact key (trp z k i).1 true true (by rw [d2]; simp) (by rw [d2, e]; simp) (Or.inl rfl)
      · have e := isW5_inj h1 h2
        exact key (trp z k i).2 false true (by rw [d2]; simp) (by rw [d2, e]; simp) (Or.inr rfl)
    · obtain rfl := hi3' rfl
      rcases hh' with ⟨h1, h2⟩ | ⟨_, h⟩
      · have e := isW5_inj h1 h2
        exact key 0 true false (by rw [d2, e]; simp) (by rw [d3, Nat.zero_mul]; simp) (Or.inl rfl)
      · exact h.elim
    · simp only [aLt] at hlt; omega
    · simp only [aLt] at hlt; omega
    · have := hi3 rfl; have := hi3' rfl; simp only [aLt] at hlt; omega
  · exfalso; simp only at hh; omega
  · exfalso; simp only at hh; omega

/-- Facts about a label that follow from its place in the step. -/
theorem lab_facts {st i : Nat} (hl : ((k, st, i) : ALab) ∈ aLabs (α := α) dv z Z) :
    k < z.mt ∧ st ≤ 10 ∧ (st ≠ 0 → st ≠ 10 → k + 1 < z.mt) ∧ (st = 1 ∨ st = 5 → 0 < i ∧ i ≤ k) ∧ (2 < st → st ≠ 5 → i = 0) ∧ (st = 2 ∨ st = 3 ∨ st = 8 → 0 < k) ∧
      (st = 2 ∨ st = 3 → useW5 z k) := by
  obtain ⟨hk, hm⟩ := mem_aLabs.mp hl
  rcases hm with ⟨rfl, _⟩ | ⟨rfl, rfl⟩ | ⟨hk1, ⟨rfl, h1, h2⟩ | ⟨rfl, h0, h5, _⟩ | ⟨rfl, h0, h5, rfl⟩ | ⟨rfl, rfl⟩ | ⟨rfl, h1, h2⟩ | ⟨rfl, rfl⟩ | ⟨rfl, rfl⟩ | ⟨rfl, h0, rfl⟩ | ⟨rfl, rfl⟩⟩
  all_goals refine ⟨hk, by omega, by omega, by omega, by omega, by omega, fun _ => ?_⟩
  all_goals first | exact h5 | (exfalso; omega)

theorem und_ne {st : Nat} (h : und st) : st ≠ 0 ∧ st ≠ 10 ∧ st ≠ 6 ∧ st ≠ 7 ∧ st ≠ 8 := by unfold und at h; omega
/-- A task that does not declare its accesses belongs to the update, the panel or the interchanges. -/
theorem und_cases {st : Nat} (h : und st) : (st = 1 ∨ st = 2 ∨ st = 3) ∨ st = 4 ∨ st = 5 ∨ st = 9 := by unfold und at h; omega

/-- Interchanges, before the update of the next column. -/
theorem ich_upd (hz : z.OK) (hZ : AMOK z Z) {st i st' i' : Nat} (hx : ((k, st, i) : ALab) ∈ aLabs (α := α) dv z Z)
    (hy : ((k + 1, st', i') : ALab) ∈ aLabs (α := α) dv z Z) (h : st = 5 ∨ st = 9) (h' : st' = 1 ∨ st' = 2 ∨ st' = 3)
    (hc : TConflict (aTask E mag dv big z Z (k, st, i)) (aTask E mag dv big z Z (k + 1, st', i'))) : RR E mag dv big z Z (k, st, i) (k + 1, st', i') := by
  obtain ⟨-, -, -, f4, f5, -, -⟩ := lab_facts hx
  obtain ⟨-, -, -, g4, g5, -, -⟩ := lab_facts hy
  have hcf := aTask_conf hz hZ hx hy hc
  rcases hcf with ⟨m, c, hh⟩ | ⟨q, hh⟩ | hh | hh
  · replace hh := hh.imp (fun h => And.intro h.1 h.2.1) id
    rcases h with rfl | rfl
    · have hi := f4 (Or.inr rfl)
      clear f4 f5
      rcases h' with rfl | rfl | rfl <;> simp only [wA, rA] at hh
      · have hi' := g4 (Or.inl rfl)
        have e : i - 1 = i' - 1 := by omega
        refine RR.edge (a := Z.a (k + 1) (i' - 1)) (u := true) (v := false) hx hy (lt_k (by omega)) ?_ (d1a i') (Or.inl rfl)
        rw [d5, e]; simp
      · rcases hh with ⟨_, h⟩ | ⟨_, h⟩ <;> exact h.elim
      · omega
    · obtain rfl := f5 (by omega) (by omega)
      clear f4 f5
      rcases h' with rfl | rfl | rfl <;> simp only [wA, rA] at hh
      · have hi' := g4 (Or.inl rfl)
        by_cases h5 : useW5 z (k + 1)
        · exfalso
          rcases hh with ⟨h1, _, h2 | ⟨h2, _⟩⟩ | ⟨_, _, h2, _⟩
          · omega
          · exact h2 h5
          · exact h2 h5
        · exact RR.edge (a := Z.a (k + 1) (k + 1)) (u := true) (v := false) hx hy (lt_k (by omega)) (by rw [d9]; simp) (by rw [d1c h5]; simp) (Or.inl rfl)
      · rcases hh with ⟨_, h⟩ | ⟨_, h⟩ <;> exact h.elim
      · obtain rfl := g5 (by omega) (by omega)
        exact RR.edge (a := Z.a (k + 1) (k + 1)) (u := true) (v := false) hx hy (lt_k (by omega)) (by rw [d9]; simp) (by rw [d3]; simp) (Or.inl rfl)
  · rcases h with rfl | rfl <;> simp only [wW, rW] at hh <;> rcases hh with ⟨h, _⟩ | ⟨h, _⟩ <;> exact h.elim
  · exfalso; simp only at hh; omega
  · exfalso; simp only at hh; omega

theorem ich_ich (hz : z.OK) (hZ : AMOK z Z) {st i st' i' : Nat} (hx : ((k, st, i) : ALab) ∈ aLabs (α := α) dv z Z)
    (hy : ((k, st', i') : ALab) ∈ aLabs (α := α) dv z Z) (h : st = 5 ∨ st = 9) (h' : st' = 5 ∨ st' = 9) (hlt : st < st' ∨ st = st' ∧ i < i')
    (hc : TConflict (aTask E mag dv big z Z (k, st, i)) (aTask E mag dv big z Z (k, st', i'))) : False := by
  obtain ⟨-, -, -, f4, f5, -, -⟩ := lab_facts hx
  obtain ⟨-, -, -, g4, g5, -, -⟩ := lab_facts hy
  have hcf := aTask_conf hz hZ hx hy hc
  rcases hcf with ⟨m, c, hh⟩ | ⟨q, hh⟩ | hh | hh
  · replace hh := hh.imp (fun h => And.intro h.1 h.2.1) id
    rcases h with rfl | rfl <;> rcases h' with rfl | rfl <;> simp only [wA, rA] at hh
    · have := f4 (Or.inr rfl); have := g4 (Or.inr rfl); clear f4 g4 f5 g5; omega
    · have := f4 (Or.inr rfl); clear f4 g4 f5 g5; omega
    · omega
    · have := f5 (by omega) (by omega); have := g5 (by omega) (by omega); clear f4 g4 f5 g5; omega
  · rcases h with rfl | rfl <;> simp only [wW, rW] at hh <;> rcases hh with ⟨h, _⟩ | ⟨h, _⟩ <;> exact h.elim
  · simp only at hh; omega
  · simp only at hh; omega

/-- Conflicts of tasks that do not declare all their accesses. -/
theorem und_und (hz : z.OK) (hZ : AMOK z Z) {k' st i st' i' : Nat} (hx : ((k, st, i) : ALab) ∈ aLabs (α := α) dv z Z)
    (hy : ((k', st', i') : ALab) ∈ aLabs (α := α) dv z Z) (h : und st) (h' : und st') (hlt : aLt (k, st, i) (k', st', i'))
    (hc : TConflict (aTask E mag dv big z Z (k, st, i)) (aTask E mag dv big z Z (k', st', i'))) : RR E mag dv big z Z (k, st, i) (k', st', i') := by
  obtain ⟨-, -, f3, -, f5, -, -⟩ := lab_facts hx
  obtain ⟨-, -, g3, -, g5, -, -⟩ := lab_facts hy
  have hk1 := f3 (und_ne h).1 (und_ne h).2.1
  have hk1' := g3 (und_ne h').1 (und_ne h').2.1
  clear f3 g3
  have hlt0 := hlt
  simp only [aLt] at hlt
  rcases und_cases h' with hs' | rfl | hs'
  · rcases und_cases h with hs | rfl | hs
    · rcases Nat.lt_or_ge k k' with hkk | hkk
      · exact (upd_p hx hs).trans (p_und hy h' (Or.inl hkk))
      · obtain rfl : k = k' := by omega
        exact upd_upd hz hZ hx hy hs hs' hlt0 hc
    · obtain rfl := f5 (by omega) (by omega)
      exact p_und hy h' (by omega)
    · have hkk : k < k' := by omega
      by_cases hnear : k + 1 < k'
      · exact (und_p (k' := k + 1) hx h (by omega) (by omega)).trans (p_und hy h' (Or.inl hnear))
      · obtain rfl : k' = k + 1 := by omega
        exact ich_upd hz hZ hx hy hs hs' hc
  · obtain rfl := g5 (by omega) (by omega)
    rcases Nat.lt_or_ge k k' with hkk | hkk
    · exact und_p hx h hkk hk1'
    · obtain rfl : k = k' := by omega
      rcases und_cases h with hs | rfl | hs
      · exact upd_p hx hs
      · have := f5 (by omega) (by omega); omega
      · omega
  · rcases Nat.lt_or_ge k k' with hkk | hkk
    · exact (und_p hx h hkk hk1').trans (p_und hy h' (Or.inr ⟨rfl, hs'⟩))
    · obtain rfl : k = k' := by omega
      rcases und_cases h with hs | rfl | hs
      · exact (upd_p hx hs).trans (p_und hy h' (Or.inr ⟨rfl, hs'⟩))
      · obtain rfl := f5 (by omega) (by omega)
        exact p_und hy h' (Or.inr ⟨rfl, hs'⟩)
      · exact (ich_ich hz hZ hx hy hs hs' (by omega) hc).elim

theorem dec_st {st : Nat} (h : st ≤ 10) : und st ∨ (st = 0 ∨ st = 6 ∨ st = 7 ∨ st = 8 ∨ st = 10) := by unfold und; omega

/-- All earlier tasks that do not declare their accesses come before or are the panel. -/
theorem und_pe {k' st i : Nat} (hx : ((k, st, i) : ALab) ∈ aLabs (α := α) dv z Z) (h : und st) (hk : k < k' ∨ k = k' ∧ st ≤ 4) (hk' : k' + 1 < z.mt)
    {y : ALab} (hy : RR E mag dv big z Z (k', 4, 0) y) : RR E mag dv big z Z (k, st, i) y := by
  rcases hk with hk | ⟨rfl, h4⟩
  · exact (und_p hx h hk hk').trans hy
  · by_cases e : st = 4
    · obtain ⟨-, -, -, -, f5, -⟩ := lab_facts hx
      obtain rfl := f5 (by omega) (by omega)
      subst e
      exact hy
    · refine (upd_p hx ?_).trans hy
      unfold und at h; omega

/-- A task that does not declare its accesses, before one that does. -/
theorem und_dec (hz : z.OK) (hZ : AMOK z Z) {k' st i st' i' : Nat} (hx : ((k, st, i) : ALab) ∈ aLabs (α := α) dv z Z)
    (hy : ((k', st', i') : ALab) ∈ aLabs (α := α) dv z Z) (hu : und st) (h' : st' = 0 ∨ st' = 6 ∨ st' = 7 ∨ st' = 8 ∨ st' = 10) (hlt : aLt (k, st, i) (k', st', i'))
    (hc : TConflict (aTask E mag dv big z Z (k, st, i)) (aTask E mag dv big z Z (k', st', i'))) : RR E mag dv big z Z (k, st, i) (k', st', i') := by
  obtain ⟨f1, f2, f3, f4, f5, f6, f7⟩ := lab_facts hx
  obtain ⟨g1, g2, g3, g4, g5, g6, g7⟩ := lab_facts hy
  have hdy := aTask_decl (E := E) (mag := mag) (big := big) hy h'
  have h := hu
  unfold und at h
  have hk1 := f3 (by omega) (by omega)
  have hcf := aTask_conf hz hZ hx hy hc
  have hlt' := hlt
  simp only [aLt] at hlt
  -- conflicts in the workspace are on `H(n)` only
  have hW : ∀ q, (wW z (k, st, i) q ∧ rW z (k', st', i') q ∧ (∃ i_1 j, (aTask E mag dv big z Z (k, st, i)).wr (Z.W.at' q 0) i_1 j) ∨
      rW z (k, st, i) q ∧ wW z (k', st', i') q ∧ ∃ i_1 j, (aTask E mag dv big z Z (k', st', i')).wr (Z.W.at' q 0) i_1 j) → RR E mag dv big z Z (k, st, i) (k', st', i') := by
    intro q hh
    have hq : rW z (k', st', i') q → q < 1 + 4 * z.mt := by
      intro hr
      rcases h' with rfl | rfl | rfl | rfl | rfl <;> simp only [rW] at hr <;> exact hr
    have hqw : wW z (k', st', i') q → q < 1 + 4 * z.mt := by
      intro hr
      rcases h' with rfl | rfl | rfl | rfl | rfl <;> simp only [wW] at hr <;> exact hr
    rcases hh with ⟨hw, hr, _⟩ | ⟨hr, hw, i1, j1, hwr⟩
    · exfalso
      have := hq hr
      rcases h with rfl | rfl | rfl | rfl | rfl | rfl <;> simp only [wW] at hw
      · have := isW5_ge hw.2; omega
      · have := isW5_ge hw; omega
    · have := hqw hw
      rcases h with rfl | rfl | rfl | rfl | rfl | rfl <;> simp only [rW] at hr
      · rcases hr with rfl | ⟨_, hr⟩
        · exact RR.edge (a := Z.h i) (u := false) (v := true) hx hy hlt' (d1h i) (hdy.2 _ _ _ hwr) (Or.inr rfl)
        · have := isW5_ge hr; omega
      · rcases hr with hr | hr <;> (have := isW5_ge hr; omega)
      · have := isW5_ge hr; omega
  rcases hcf with ⟨m, c, hh⟩ | ⟨q, hh⟩ | hh | hh
  rotate_left
  · exact hW q hh
  · exfalso; simp only at hh; omega
  · exfalso; simp only at hh; omega
  have hraw := hh
  replace hh := hh.imp (fun h => And.intro h.1 h.2.1) id
  rcases h' with rfl | rfl | rfl | rfl | rfl
  · -- the first tasks of a step read row `k'`
    have hkk : k < k' := by omega
    have hwx : wA z (k, st, i) m c ∧ m = k' ∧ c ≤ k' := by
      simp only [rA, wA] at hh
      rcases hh with hh | ⟨_, hh⟩
      · exact hh
      · exact hh.elim
    obtain ⟨hwx, rfl, hc'⟩ := hwx
    -- the key of the reading task
    have hkey : ∃ v, (Z.a m c, v) ∈ (aTask E mag dv big z Z (m, 0, i')).deps := by
      rcases hraw with ⟨_, _, i1, j1, hr | hr⟩ | ⟨_, hr⟩
      · exact hdy.1 _ _ _ hr
      · exact ⟨true, hdy.2 _ _ _ hr⟩
      · simp only [wA] at hr
    obtain ⟨v, hkey⟩ := hkey
    have e : m - 1 + 1 = m := by omega
    by_cases c1 : c = m
    · -- written by the symmetric interchanges
      subst c1
      have hz9 : RR E mag dv big z Z (c - 1, 9, 0) (c, 0, i') :=
        RR.edge (a := Z.a c c) (u := true) (l9 dv z Z (by omega)) hy (lt_k (by omega)) (by rw [d9, e]; simp) hkey (Or.inl rfl)
      by_cases hk' : k + 1 = c
      · subst hk'
        have : st = 9 := by
          rcases h with rfl | rfl | rfl | rfl | rfl | rfl <;> simp only [wA] at hwx <;> omega
        subst this
        obtain rfl := f5 (by omega) (by omega)
        exact hz9
      · exact und_pe hx hu (k' := c - 1) (by omega) (by omega) ((p_sym (by omega)).trans hz9)
    by_cases c2 : c = m - 1
    · -- written by the panel
      have hz4 : RR E mag dv big z Z (m - 1, 4, 0) (m, 0, i') :=
        RR.edge (a := Z.a m c) (u := true) (l4 dv z Z (by omega)) hy (lt_k (by omega)) (by rw [d4, e, c2]; simp) hkey (Or.inl rfl)
      refine und_pe hx hu (k' := m - 1) ?_ (by omega) hz4
      by_cases hk' : k + 1 = m
      · right
        refine ⟨by omega, ?_⟩
        rcases h with rfl | rfl | rfl | rfl | rfl | rfl <;> simp only [wA] at hwx <;> omega
      · omega
    · -- written by the interchanges of rows
      have hz5 : RR E mag dv big z Z (m - 1, 5, c + 1) (m, 0, i') :=
        RR.edge (a := Z.a m c) (u := true) (l5 dv z Z (by omega) (by omega) (by omega)) hy (lt_k (by omega)) (by rw [d5, e]; simp) hkey (Or.inl rfl)
      by_cases hk' : k + 1 = m
      · have : st = 5 ∧ c = i - 1 := by
          rcases h with rfl | rfl | rfl | rfl | rfl | rfl <;> simp only [wA] at hwx <;> omega
        obtain ⟨rfl, rfl⟩ := this
        have hi := f4 (Or.inr rfl)
        rw [show i - 1 + 1 = i by omega, show m - 1 = k by omega] at hz5
        exact hz5
      · exact und_pe hx hu (k' := m - 1) (by omega) (by omega) ((p_row (by omega) (by omega) (by omega)).trans hz5)
  · have hk1' := g3 (by omega) (by omega)
    obtain rfl := g5 (by omega) (by omega)
    refine und_pe hx hu (k' := k') ?_ hk1' (RR.edge (a := Z.a (k' + 1) k') (u := true) (v := false) (l4 dv z Z hk1') hy (lt_st (by omega)) (by rw [d4]; simp) (by rw [d6]; simp) (Or.inl rfl))
    rcases Nat.lt_or_ge k k' with hkk | hkk
    · exact Or.inl hkk
    · right
      obtain rfl : k = k' := by omega
      refine ⟨rfl, ?_⟩
      by_contra h4
      obtain rfl : st = 5 := by omega
      have := f4 (Or.inr rfl)
      rcases hh with ⟨h1, h2⟩ | ⟨_, h2⟩
      · replace h1 : _ ∧ c = i - 1 := h1
        replace h2 : _ ∧ c = k := h2
        omega
      · exact h2.elim
  · have hk1' := g3 (by omega) (by omega)
    obtain rfl := g5 (by omega) (by omega)
    refine und_pe hx hu (k' := k') ?_ hk1' (RR.edge (a := Z.a (k' + 1) k') (u := true) (v := true) (l4 dv z Z hk1') hy (lt_st (by omega)) (by rw [d4]; simp) ?_ (Or.inl rfl))
    swap
    · show _ ∈ [_, _, (Z.a (k' + 1) k', true)]
      simp
    rcases Nat.lt_or_ge k k' with hkk | hkk
    · exact Or.inl hkk
    · right
      obtain rfl : k = k' := by omega
      refine ⟨rfl, ?_⟩
      by_contra h4
      obtain rfl : st = 5 := by omega
      have := f4 (Or.inr rfl)
      simp only [rA, wA] at hh
      omega
  · have hk1' := g3 (by omega) (by omega)
    have hk0 := g6 (by omega)
    obtain rfl := g5 (by omega) (by omega)
    have hwx : wA z (k, st, i) m c ∧ m = k' ∧ c = k' - 1 := by
      simp only [rA, wA] at hh
      rcases hh with hh | ⟨_, hh⟩
      · exact hh
      · exact hh.elim
    obtain ⟨hwx, rfl, rfl⟩ := hwx
    have e : m - 1 + 1 = m := by omega
    refine und_pe hx hu (k' := m - 1) ?_ (by omega) (RR.edge (a := Z.a m (m - 1)) (u := true) (v := false) (l4 dv z Z (by omega)) hy (lt_k (by omega)) (by rw [d4, e]; simp) ?_ (Or.inl rfl))
    swap
    · show _ ∈ [(Z.a m (m - 1), false), _, _]
      simp
    rcases h with rfl | rfl | rfl | rfl | rfl | rfl <;> simp only [wA] at hwx <;> omega
  · simp only [rA, wA] at hh
    rcases hh with ⟨_, hh⟩ | ⟨_, hh⟩ <;> exact hh.elim

theorem und_rA {st i m c : Nat} (h : und st) (hr : rA z (k, st, i) m c) : k < m ∧ (st = 9 → k < c) := by
  rcases h with rfl | rfl | rfl | rfl | rfl | rfl
  · exact ⟨hr.1, fun h => by omega⟩
  · exact hr.elim
  · exact ⟨hr.1, fun h => by omega⟩
  · exact ⟨hr.1, fun h => by omega⟩
  · exact ⟨hr.1, fun h => by omega⟩
  · exact ⟨lt_of_lt_of_le hr.1 hr.2, fun _ => hr.1⟩

theorem und_wA {st i m c : Nat} (h : und st) (hr : wA z (k, st, i) m c) : k < m ∧ (st = 9 → k < c) := by
  rcases h with rfl | rfl | rfl | rfl | rfl | rfl
  · exact ⟨hr.1, fun h => by omega⟩
  · exact hr.elim
  · exact ⟨hr.1, fun h => by omega⟩
  · exact ⟨hr.1, fun h => by omega⟩
  · exact ⟨hr.1, fun h => by omega⟩
  · exact ⟨lt_of_lt_of_le hr.1 hr.2, fun _ => hr.1⟩

/-- A task that declares its accesses, before one that does not. -/
theorem dec_und (hz : z.OK) (hZ : AMOK z Z) {k' st i st' i' : Nat} (hx : ((k, st, i) : ALab) ∈ aLabs (α := α) dv z Z)
    (hy : ((k', st', i') : ALab) ∈ aLabs (α := α) dv z Z) (h : st = 0 ∨ st = 6 ∨ st = 7 ∨ st = 8 ∨ st = 10) (hu : und st') (hlt : aLt (k, st, i) (k', st', i'))
    (hc : TConflict (aTask E mag dv big z Z (k, st, i)) (aTask E mag dv big z Z (k', st', i'))) : RR E mag dv big z Z (k, st, i) (k', st', i') := by
  obtain ⟨-, -, -, g4, -, -, -⟩ := lab_facts hy
  have hdx := aTask_decl (E := E) (mag := mag) (big := big) hx h
  have hcf := aTask_conf hz hZ hx hy hc
  have hlt' := hlt
  simp only [aLt] at hlt
  rcases hcf with ⟨m, c, hh⟩ | ⟨q, hh⟩ | hh | hh
  · exfalso
    have hm : k' < m ∧ (st' = 9 → k' < c) := by
      rcases hh with ⟨_, hr, _⟩ | ⟨_, hr⟩
      · exact und_rA hu hr
      · exact und_wA hu hr
    have hst : k = k' → st ≠ 0 → st ≠ 10 → st' = 9 := by
      intro e h1 h2
      unfold und at hu; omega
    have hxr : rA z (k, st, i) m c := by
      rcases hh with ⟨hr, _⟩ | ⟨hr, _⟩
      · rcases h with rfl | rfl | rfl | rfl | rfl
        · exact hr.elim
        · exact hr.elim
        · exact hr
        · exact hr.elim
        · exact hr.elim
      · exact hr
    rcases h with rfl | rfl | rfl | rfl | rfl
    · have : m = k := hxr.1
      omega
    · have h1 : m = k + 1 := hxr.1
      have h2 : c = k := hxr.2
      omega
    · have h1 : m = k + 1 := hxr.1
      have h2 : c = k := hxr.2
      omega
    · have h1 : m = k := hxr.1
      omega
    · exact hxr.elim
  · rcases hh with ⟨hw, hr, i1, j1, hwr⟩ | ⟨hr, hw, _⟩
    · have hq : q < 1 + 4 * z.mt := by
        rcases h with rfl | rfl | rfl | rfl | rfl
        · exact hw
        · exact hw
        · exact hw.elim
        · exact hw
        · exact hw.elim
      rcases hu with rfl | rfl | rfl | rfl | rfl | rfl
      · rcases hr with rfl | ⟨_, hr⟩
        · exact RR.edge (a := Z.h i') (u := true) (v := false) hx hy hlt' (hdx.2 _ _ _ hwr) (d1h i') (Or.inl rfl)
        · have := isW5_ge hr; omega
      · rcases hr with hr | hr <;> (have := isW5_ge hr; omega)
      · have := isW5_ge hr; omega
      · exact hr.elim
      · exact hr.elim
      · exact hr.elim
    · exfalso
      have hq : q < 1 + 4 * z.mt := by
        rcases h with rfl | rfl | rfl | rfl | rfl
        · exact hr
        · exact hr
        · exact hr.elim
        · exact hr
        · exact hr
      rcases hu with rfl | rfl | rfl | rfl | rfl | rfl
      · have := isW5_ge hw.2; omega
      · have := isW5_ge hw; omega
      · exact hw.elim
      · exact hw.elim
      · exact hw.elim
      · exact hw.elim
  · exfalso; simp only at hh; unfold und at hu; omega
  · exfalso; simp only at hh; omega

/-- The dependences order all conflicting tasks. -/
theorem aasen_reach (hz : z.OK) (hZ : AMOK z Z) {x y : ALab} (hx : x ∈ aLabs (α := α) dv z Z) (hy : y ∈ aLabs (α := α) dv z Z) (hlt : aLt x y)
    (hc : TConflict (aTask E mag dv big z Z x) (aTask E mag dv big z Z y)) : RR E mag dv big z Z x y := by
  obtain ⟨k, st, i⟩ := x
  obtain ⟨k', st', i'⟩ := y
  rcases dec_st (lab_facts hx).2.1 with h | h <;> rcases dec_st (lab_facts hy).2.1 with h' | h'
  · exact und_und hz hZ hx hy h h' hlt hc
  · exact und_dec hz hZ hx hy h h' hlt hc
  · exact dec_und hz hZ hx hy h h' hlt hc
  · exact Relation.TransGen.single ⟨hx, hy, hlt, tdep_of_declared (aTask_decl hx h) (aTask_decl hy h') hc⟩

theorem aasen_cov (hz : z.OK) (hZ : AMOK z Z) : TCovered (tasks (pzhetrfAasen E mag dv big z Z)) := by
  rw [prog_labs]
  exact tcovered_of_reach aLabs_sorted aLt_asym fun x hx y hy hlt hc => aasen_reach hz hZ hx hy hlt hc

theorem aTask_local (hz : z.OK) (hZ : AMOK z Z) {l : ALab} (hl : l ∈ aLabs (α := α) dv z Z) : (aTask E mag dv big z Z l).Local := by
  obtain ⟨k, st, i⟩ := l
  obtain ⟨hk, h⟩ := mem_aLabs.mp hl
  rcases h with ⟨rfl, hi⟩ | ⟨rfl, rfl⟩ | ⟨hk1, h⟩
  · show TTask.Local (((preT dv z Z k)[i]?).getD (kExp 0 Z.w0))
    rw [List.getElem?_eq_getElem hi]
    exact (pre_ker _ (List.getElem_mem hi)).loc
  · exact seqT_local fun t ht => (copyB_ker k t ht).loc
  rcases h with ⟨rfl, h1, h2⟩ | ⟨rfl, h0, h5, hi⟩ | ⟨rfl, h0, h5, rfl⟩ | ⟨rfl, rfl⟩ | ⟨rfl, h1, h2⟩ | ⟨rfl, rfl⟩ | ⟨rfl, rfl⟩ | ⟨rfl, h0, rfl⟩ | ⟨rfl, rfl⟩
  · show TTask.Local (if useW5 z k then w5MT z Z k i else colT z Z k i)
    split
    · refine seqT_local fun t ht => ?_
      obtain ⟨m, hm, rfl⟩ := List.mem_map.mp ht
      exact isk_gemm.loc
    · refine seqT_local fun t ht => ?_
      obtain ⟨m, hm, rfl⟩ := List.mem_map.mp ht
      exact isk_gemm.loc
  · refine seqT_local fun t ht => ?_
    obtain ⟨m, hm, rfl⟩ := List.mem_map.mp ht
    exact isk_add.loc
  · refine seqT_local fun t ht => ?_
    obtain ⟨m, hm, rfl⟩ := List.mem_map.mp ht
    exact isk_add.loc
  · exact panelT_local hz hZ hk1
  · exact rowT_local hz hZ hk1
  · exact isk_cpU.loc
  · exact isk_setU.loc
  · exact isk_trsm.loc
  · exact symT_local hz hZ hk1

theorem aTask_inside {env : M → MatEnv} (hz : z.OK) (hF : AFit env z Z) {l : ALab} (hl : l ∈ aLabs (α := α) dv z Z) :
    (aTask E mag dv big z Z l).Inside (evalid env) := by
  obtain ⟨k, st, i⟩ := l
  obtain ⟨hk, h⟩ := mem_aLabs.mp hl
  rcases h with ⟨rfl, hi⟩ | ⟨rfl, rfl⟩ | ⟨hk1, h⟩
  · show TTask.Inside (((preT dv z Z k)[i]?).getD (kExp 0 Z.w0)) _
    rw [List.getElem?_eq_getElem hi]
    exact pre_inside hz hF hk _ (List.getElem_mem hi)
  · exact copyT_inside hz hF hk
  have e0 := AC.mvle hz hk
  have e1 := AC.mvle hz hk1
  rcases h with ⟨rfl, h1, h2⟩ | ⟨rfl, h0, h5, hi⟩ | ⟨rfl, h0, h5, rfl⟩ | ⟨rfl, rfl⟩ | ⟨rfl, h1, h2⟩ | ⟨rfl, rfl⟩ | ⟨rfl, rfl⟩ | ⟨rfl, h0, rfl⟩ | ⟨rfl, rfl⟩
  · show TTask.Inside (if useW5 z k then w5MT z Z k i else colT z Z k i) _
    split
    · exact w5M_inside hz hF hk1 h1 h2
    · exact col_inside hz hF hk1 h1 h2
  · refine w5S_inside hz hF hk1 ?_
    rw [List.getElem?_eq_getElem hi]
    exact List.getElem_mem hi
  · exact w5A_inside hz hF h0 hk1
  · exact panelT_inside hz hF hk1
  · exact rowT_inside hz hF hk1 h1 h2
  · show TTask.Inside (kCpU (α := α) (z.mv (k + 1)) (z.mv k) (Z.a (k + 1) k) (Z.t z (k + 1) k)) _
    exact ker_inside (in_a hz hF hk1 (by omega) (le_refl _) (le_refl _)) (in_a hz hF hk1 (by omega) (le_refl _) (le_refl _))
      (in_t hz hF hk1 (by omega) e1 e0)
  · show TTask.Inside (kSetU (α := α) (z.mv (k + 1)) (z.mv k) (Z.a (k + 1) k)) _
    exact ker_inside (in_a hz hF hk1 (by omega) (le_refl _) (le_refl _)) (in_a hz hF hk1 (by omega) (le_refl _) (le_refl _))
      (in_a hz hF hk1 (by omega) (le_refl _) (le_refl _))
  · show TTask.Inside (kTrsm dv (z.mv (k + 1)) (z.mv k) (Z.a k (k - 1)) (Z.t z (k + 1) k)) _
    have e2 := hz.mvb (show k - 1 + 1 < z.mt by omega)
    exact ker_inside (in_a hz hF hk (by omega) (le_refl _) (by omega)) (in_a hz hF hk (by omega) (le_refl _) (by omega))
      (in_t hz hF hk1 (by omega) e1 e0)
  · exact symT_inside hz hF hk1

theorem aasen_good {env : M → MatEnv} (hz : z.OK) (hZ : AMOK z Z) (hF : AFit env z Z) : GoodC (evalid env) (tasks (pzhetrfAasen E mag dv big z Z)) := by
  refine ⟨?_, ?_, aasen_cov hz hZ⟩
  · intro t ht
    rw [prog_labs] at ht
    obtain ⟨l, hl, rfl⟩ := List.mem_map.mp ht
    exact aTask_local hz hZ hl
  · intro t ht
    rw [prog_labs] at ht
    obtain ⟨l, hl, rfl⟩ := List.mem_map.mp ht
    exact aTask_inside hz hF hl

theorem aasen_codeOK (hz : z.OK) (hZ : AMOK z Z) : CodeOK (pzhetrfAasen E mag dv big z Z) := by
  constructor
  · intro t ht s s' hs
    obtain ⟨⟨k, st, i⟩, hl, rfl⟩ := List.mem_map.mp ht
    by_cases h4 : st = 4
    · subst h4
      show (if (4 : Nat) = 4 then panelC mag dv big z Z k else fun _ => 0) s = (if (4 : Nat) = 4 then panelC mag dv big z Z k else fun _ => 0) s'
      rw [if_pos rfl]
      exact panelC_congr (E := E) hz hZ ((lab_facts hl).2.2.1 (by omega) (by omega)) hs
    · show (if st = 4 then panelC mag dv big z Z k else fun _ => 0) s = (if st = 4 then panelC mag dv big z Z k else fun _ => 0) s'
      rw [if_neg h4]
  · intro t ht hg s
    obtain ⟨⟨k, st, i⟩, hl, rfl⟩ := List.mem_map.mp ht
    by_cases h4 : st = 4
    · subst h4; simp [aG] at hg
    · show (if st = 4 then panelC mag dv big z Z k else fun _ => 0) s = 0
      rw [if_neg h4]

end

end Verif.Aasen

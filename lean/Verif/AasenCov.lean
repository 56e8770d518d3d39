/-
The `depend` clauses of `plasma_pzhetrf_aasen` order all conflicting tasks.
-/
import Verif.AasenGood

namespace Verif.Aasen

open Verif.Tile Verif.Layout Verif.LU Verif.Panel Verif.Heswp Finset

set_option linter.unusedSectionVars false

universe u v w

/-- Every tile but the first is the second of some pair of the tree, and the first of a pair, unless it is tile 0, is the second of a
later pair. -/
theorem tree_next (num : Nat) :
    (∀ q, 0 < q → q < num → ∃ i : Nat, ∃ p, (tree num)[i]? = some p ∧ p.2 = q) ∧
    (∀ (i : Nat) p, (tree num)[i]? = some p → p.1 ≠ 0 → ∃ i' p', i < i' ∧ (tree num)[i']? = some p' ∧ p'.2 = p.1) := by
  have key : ∀ R P d, P ≤ 2 ^ R →
      (∀ j, 0 < j → j < P → ∃ i : Nat, ∃ p, (treePairs R P (2 * d))[i]? = some p ∧ p.2 = j * d) ∧
      (∀ (i : Nat) p, (treePairs R P (2 * d))[i]? = some p → p.1 ≠ 0 →
        ∃ i' p', i < i' ∧ (treePairs R P (2 * d))[i']? = some p' ∧ p'.2 = p.1) := by
    intro R
    induction R with
    | zero =>
      intro P d hP
      refine ⟨fun j h1 h2 => ?_, fun i p hp => ?_⟩
      · simp at hP; omega
      · simp [treePairs] at hp
    | succ R ih =>
      intro P d hP
      have hP' : (P + 1) / 2 ≤ 2 ^ R := by rw [Nat.pow_succ] at hP; omega
      obtain ⟨ih1, ih2⟩ := ih ((P + 1) / 2) (2 * d) hP'
      have hd : 2 * d / 2 = d := by omega
      unfold treePairs
      rw [hd]
      have hlen : ((List.range (P / 2)).map fun br => (2 * d * br, 2 * d * br + d)).length = P / 2 := by simp
      have hfst : ∀ i, i < P / 2 → (((List.range (P / 2)).map fun br => (2 * d * br, 2 * d * br + d)) ++
          treePairs R ((P + 1) / 2) (2 * (2 * d)))[i]? = some (2 * d * i, 2 * d * i + d) := by
        intro i hi
        rw [List.getElem?_append_left (by rw [hlen]; exact hi), List.getElem?_map, List.getElem?_range hi]; rfl
      have hsnd : ∀ i, (((List.range (P / 2)).map fun br => (2 * d * br, 2 * d * br + d)) ++
          treePairs R ((P + 1) / 2) (2 * (2 * d)))[P / 2 + i]? = (treePairs R ((P + 1) / 2) (2 * (2 * d)))[i]? := by
        intro i
        rw [List.getElem?_append_right (by rw [hlen]; omega), hlen, Nat.add_sub_cancel_left]
      constructor
      · intro j h1 h2
        rcases Nat.even_or_odd' j with ⟨c, rfl | rfl⟩
        · obtain ⟨i, p, hi, hp⟩ := ih1 c (by omega) (by omega)
          exact ⟨P / 2 + i, p, by rw [hsnd]; exact hi, by rw [hp]; ring⟩
        · exact ⟨c, _, hfst c (by omega), by simp only; ring⟩
      · intro i p hi hp
        by_cases hlt : i < P / 2
        · rw [hfst i hlt] at hi
          cases hi
          simp only at hp ⊢
          have h0 : 0 < i := Nat.pos_of_ne_zero fun h => hp (by rw [h]; simp)
          obtain ⟨i', p', hi', hp'⟩ := ih1 i h0 (by omega)
          exact ⟨P / 2 + i', p', by omega, by rw [hsnd]; exact hi', by rw [hp']; ring⟩
        · obtain ⟨e, rfl⟩ : ∃ e, i = P / 2 + e := ⟨i - P / 2, by omega⟩
          rw [hsnd] at hi
          obtain ⟨i', p', h1, hi', hp'⟩ := ih2 e p hi hp
          exact ⟨P / 2 + i', p', by omega, by rw [hsnd]; exact hi', hp'⟩
  obtain ⟨h1, h2⟩ := key (Nat.clog 2 num) num 1 (Nat.le_pow_clog (by omega) num)
  refine ⟨fun q hq hn => ?_, h2⟩
  obtain ⟨i, p, hi, hp⟩ := h1 q hq hn
  exact ⟨i, p, hi, by rw [hp, Nat.mul_one]⟩

section
variable {M : Type u} [DecidableEq M] {α : Type v} [Field α] [StarRing α] [DecidableEq α] {γ : Type w} [LinearOrder γ]
  {E : IntCode α} {mag : α → γ} {dv : α → α → α} {big : α → Bool} {z : AC} {Z : AM M} {k : Nat}

/-! ### Labels -/

/-- Order of the labels. -/
def aLt (x y : ALab) : Prop := x.1 < y.1 ∨ x.1 = y.1 ∧ (x.2.1 < y.2.1 ∨ x.2.1 = y.2.1 ∧ x.2.2 < y.2.2)

theorem aLt_asym (x y : ALab) (h : aLt x y) : ¬ aLt y x := by
  unfold aLt at *; omega

theorem mem_aLabs {st i : Nat} : ((k, st, i) : ALab) ∈ aLabs (α := α) dv z Z ↔ k < z.mt ∧
    ((st = 0 ∧ i < (preT dv z Z k).length) ∨ (st = 10 ∧ i = 0) ∨ (k + 1 < z.mt ∧
      ((st = 1 ∧ 0 < i ∧ i ≤ k) ∨ (st = 2 ∧ 0 < k ∧ useW5 z k ∧ i < (tree (w5num z k)).length) ∨ (st = 3 ∧ 0 < k ∧ useW5 z k ∧ i = 0) ∨
       (st = 4 ∧ i = 0) ∨ (st = 5 ∧ 0 < i ∧ i ≤ k) ∨ (st = 6 ∧ i = 0) ∨ (st = 7 ∧ i = 0) ∨ (st = 8 ∧ 0 < k ∧ i = 0) ∨ (st = 9 ∧ i = 0)))) := by
  unfold aLabs
  rw [List.mem_flatMap]
  constructor
  · rintro ⟨k', hk', h⟩
    rw [List.mem_range] at hk'
    unfold aStepLabs at h
    simp only [List.mem_append, List.mem_map, List.mem_range, List.mem_singleton, Prod.mk.injEq] at h
    rcases h with (⟨i', hi', rfl, rfl, rfl⟩ | h) | ⟨rfl, rfl, rfl⟩
    · exact ⟨hk', Or.inl ⟨rfl, hi'⟩⟩
    · by_cases hk : k' + 1 < z.mt
      · rw [if_pos hk] at h
        simp only [List.mem_append, List.mem_map, List.mem_range'_1, List.mem_cons, List.not_mem_nil, or_false, Prod.mk.injEq] at h
        rcases h with ((((h | ⟨rfl, rfl, rfl⟩) | ⟨n, hn, rfl, rfl, rfl⟩) | (⟨rfl, rfl, rfl⟩ | ⟨rfl, rfl, rfl⟩)) | h) | ⟨rfl, rfl, rfl⟩
        · by_cases h0 : 0 < k'
          · rw [if_pos h0] at h
            simp only [List.mem_append, List.mem_map, List.mem_range'_1, Prod.mk.injEq] at h
            rcases h with ⟨n, hn, rfl, rfl, rfl⟩ | h
            · exact ⟨hk', Or.inr (Or.inr ⟨hk, Or.inl ⟨rfl, by omega, by omega⟩⟩)⟩
            · by_cases h5 : useW5 z k'
              · rw [if_pos h5] at h
                simp only [List.mem_append, List.mem_map, List.mem_range, List.mem_singleton, Prod.mk.injEq] at h
                rcases h with ⟨i', hi', rfl, rfl, rfl⟩ | ⟨rfl, rfl, rfl⟩
                · exact ⟨hk', Or.inr (Or.inr ⟨hk, Or.inr (Or.inl ⟨rfl, h0, h5, hi'⟩)⟩)⟩
                · exact ⟨hk', Or.inr (Or.inr ⟨hk, Or.inr (Or.inr (Or.inl ⟨rfl, h0, h5, rfl⟩))⟩)⟩
              · rw [if_neg h5] at h; cases h
          · rw [if_neg h0] at h; cases h
        · exact ⟨hk', Or.inr (Or.inr ⟨hk, by omega⟩)⟩
        · exact ⟨hk', Or.inr (Or.inr ⟨hk, by omega⟩)⟩
        · exact ⟨hk', Or.inr (Or.inr ⟨hk, by omega⟩)⟩
        · exact ⟨hk', Or.inr (Or.inr ⟨hk, by omega⟩)⟩
        · by_cases h0 : 0 < k'
          · rw [if_pos h0] at h
            simp only [List.mem_singleton, Prod.mk.injEq] at h
            obtain ⟨rfl, rfl, rfl⟩ := h
            exact ⟨hk', Or.inr (Or.inr ⟨hk, by omega⟩)⟩
          · rw [if_neg h0] at h; cases h
        · exact ⟨hk', Or.inr (Or.inr ⟨hk, by omega⟩)⟩
      · rw [if_neg hk] at h; cases h
    · exact ⟨hk', Or.inr (Or.inl ⟨rfl, rfl⟩)⟩
  · rintro ⟨hk', h⟩
    refine ⟨k, List.mem_range.mpr hk', ?_⟩
    unfold aStepLabs
    simp only [List.mem_append, List.mem_map, List.mem_range, List.mem_singleton, Prod.mk.injEq]
    rcases h with ⟨rfl, hi⟩ | ⟨rfl, rfl⟩ | ⟨hk, h⟩
    · exact Or.inl (Or.inl ⟨i, hi, by simp⟩)
    · exact Or.inr (by simp)
    · refine Or.inl (Or.inr ?_)
      rw [if_pos hk]
      simp only [List.mem_append, List.mem_map, List.mem_range'_1, List.mem_cons, List.not_mem_nil, or_false, Prod.mk.injEq]
      rcases h with ⟨rfl, h1, h2⟩ | ⟨rfl, h0, h5, hi⟩ | ⟨rfl, h0, h5, rfl⟩ | ⟨rfl, rfl⟩ | ⟨rfl, h1, h2⟩ | ⟨rfl, rfl⟩ | ⟨rfl, rfl⟩ | ⟨rfl, h0, rfl⟩ | ⟨rfl, rfl⟩
      · refine Or.inl (Or.inl (Or.inl (Or.inl (Or.inl ?_))))
        rw [if_pos (by omega)]
        exact List.mem_append_left _ (List.mem_map.mpr ⟨i, List.mem_range'_1.mpr (by omega), rfl⟩)
      · refine Or.inl (Or.inl (Or.inl (Or.inl (Or.inl ?_))))
        rw [if_pos h0, if_pos h5]
        exact List.mem_append_right _ (List.mem_append_left _ (List.mem_map.mpr ⟨i, List.mem_range.mpr hi, rfl⟩))
      · refine Or.inl (Or.inl (Or.inl (Or.inl (Or.inl ?_))))
        rw [if_pos h0, if_pos h5]
        exact List.mem_append_right _ (List.mem_append_right _ (List.mem_singleton.mpr rfl))
      · exact Or.inl (Or.inl (Or.inl (Or.inl (Or.inr (by simp)))))
      · exact Or.inl (Or.inl (Or.inl (Or.inr ⟨i, by omega, by simp⟩)))
      · exact Or.inl (Or.inl (Or.inr (Or.inl (by simp))))
      · exact Or.inl (Or.inl (Or.inr (Or.inr (by simp))))
      · refine Or.inl (Or.inr ?_)
        rw [if_pos h0]; exact List.mem_singleton.mpr rfl
      · exact Or.inr (by simp)

/-- Labels of step `k` in the right order, at places `lo` to `hi-1` of the step. -/
def Blk (k lo hi : Nat) (l : List ALab) : Prop := l.Pairwise aLt ∧ ∀ x ∈ l, x.1 = k ∧ lo ≤ x.2.1 ∧ x.2.1 < hi

theorem Blk.app {lo mid hi : Nat} {l1 l2 : List ALab} (h1 : Blk k lo mid l1) (h2 : Blk k mid hi l2) (h : lo ≤ mid) (h' : mid ≤ hi) : Blk k lo hi (l1 ++ l2) := by
  refine ⟨List.pairwise_append.mpr ⟨h1.1, h2.1, fun x hx y hy => ?_⟩, fun x hx => ?_⟩
  · have := h1.2 x hx
    have := h2.2 y hy
    unfold aLt; omega
  · rcases List.mem_append.mp hx with hx | hx
    · have := h1.2 x hx; omega
    · have := h2.2 x hx; omega
theorem Blk.nil {lo hi : Nat} : Blk k lo hi [] := ⟨List.Pairwise.nil, fun x hx => by cases hx⟩
theorem Blk.map {st : Nat} {l : List Nat} (h : l.Pairwise (· < ·)) : Blk k st (st + 1) (l.map fun i => ((k, st, i) : ALab)) := by
  refine ⟨?_, fun x hx => ?_⟩
  · rw [List.pairwise_map]
    exact h.imp fun h => Or.inr ⟨rfl, Or.inr ⟨rfl, h⟩⟩
  · obtain ⟨_, _, rfl⟩ := List.mem_map.mp hx
    exact ⟨rfl, le_refl _, by simp⟩
theorem Blk.one {st i : Nat} : Blk k st (st + 1) [(k, st, i)] := ⟨List.pairwise_singleton _ _, fun x hx => by
  rw [List.mem_singleton] at hx; subst hx; exact ⟨rfl, le_refl _, by simp⟩⟩
theorem Blk.ite {lo hi : Nat} {p : Prop} [Decidable p] {l : List ALab} (h : p → Blk k lo hi l) : Blk k lo hi (if p then l else []) := by
  split
  · exact h (by assumption)
  · exact Blk.nil

theorem aStep_blk : Blk k 0 11 (aStepLabs (α := α) dv z Z k) := by
  unfold aStepLabs
  refine Blk.app (mid := 10) (Blk.app (mid := 1) (Blk.map List.pairwise_lt_range) (Blk.ite fun _ => ?_) (by omega) (by omega)) Blk.one (by omega) (by omega)
  refine Blk.app (mid := 9) (Blk.app (mid := 8) (Blk.app (mid := 6) (Blk.app (mid := 5) (Blk.app (mid := 4) (Blk.ite fun _ => ?_) Blk.one ?_ ?_)
    (Blk.map List.pairwise_lt_range') ?_ ?_) (Blk.app (mid := 7) (l1 := [(k, 6, 0)]) (l2 := [(k, 7, 0)]) Blk.one Blk.one ?_ ?_) ?_ ?_) (Blk.ite fun _ => Blk.one) ?_ ?_) Blk.one ?_ ?_
  any_goals omega
  exact Blk.app (mid := 2) (Blk.map List.pairwise_lt_range')
    (Blk.ite fun _ => Blk.app (mid := 3) (Blk.map List.pairwise_lt_range) Blk.one (by omega) (by omega)) (by omega) (by omega)

theorem aStep_fst {x : ALab} (h : x ∈ aStepLabs (α := α) dv z Z k) : x.1 = k := (aStep_blk.2 x h).1

theorem aLabs_sorted : (aLabs (α := α) dv z Z).Pairwise aLt := by
  unfold aLabs
  rw [List.pairwise_flatMap]
  constructor
  · intro k _
    exact aStep_blk.1
  · refine List.Pairwise.imp (R := fun a b => a < b) ?_ List.pairwise_lt_range
    intro a b hab x hx y hy
    left
    rw [aStep_fst hx, aStep_fst hy]; exact hab

/-! ### Tiles that the tasks use -/

/-- Tiles of `A` that a task uses. -/
def rA (z : AC) : ALab → Nat → Nat → Prop
  | (k, 0, _), m, c => m = k ∧ c ≤ k
  | (k, 1, n), m, c => k < m ∧ (c = n - 1 ∨ (¬ useW5 z k ∧ c = k))
  | (_, 2, _), _, _ => False
  | (k, 3, _), m, c => k < m ∧ c = k
  | (k, 4, _), m, c => k < m ∧ c = k
  | (k, 5, n), m, c => k < m ∧ c = n - 1
  | (k, 6, _), m, c => m = k + 1 ∧ c = k
  | (k, 7, _), m, c => m = k + 1 ∧ c = k
  | (k, 8, _), m, c => m = k ∧ c = k - 1
  | (k, 9, _), m, c => k < c ∧ c ≤ m
  | _, _, _ => False

/-- Tiles of `A` that a task writes. -/
def wA (z : AC) : ALab → Nat → Nat → Prop
  | (k, 1, _), m, c => k < m ∧ ¬ useW5 z k ∧ c = k
  | (k, 3, _), m, c => k < m ∧ c = k
  | (k, 4, _), m, c => k < m ∧ c = k
  | (k, 5, n), m, c => k < m ∧ c = n - 1
  | (k, 7, _), m, c => m = k + 1 ∧ c = k
  | (k, 9, _), m, c => k < c ∧ c ≤ m
  | _, _, _ => False

/-- Tile `m` of section `p` of `W5`. -/
def isW5 (z : AC) (k p q : Nat) : Prop := ∃ m, m < z.mt - k - 1 ∧ q = 1 + 4 * z.mt + (m + p * (z.mt - k - 1))

/-- Sections of `W5` of a sum. -/
def trp (z : AC) (k i : Nat) : Nat × Nat := ((tree (w5num z k))[i]?).getD (0, 0)

/-- Tiles of `W` that a task uses. -/
def rW (z : AC) : ALab → Nat → Prop
  | (_, 0, _), q => q < 1 + 4 * z.mt
  | (k, 1, n), q => q = 1 + n ∨ (useW5 z k ∧ isW5 z k ((n - 1) % w5num z k) q)
  | (k, 2, i), q => isW5 z k (trp z k i).1 q ∨ isW5 z k (trp z k i).2 q
  | (k, 3, _), q => isW5 z k 0 q
  | (_, 6, _), q => q < 1 + 4 * z.mt
  | (_, 8, _), q => q < 1 + 4 * z.mt
  | (_, 10, _), q => q < 1 + 4 * z.mt
  | _, _ => False

/-- Tiles of `W` that a task writes. -/
def wW (z : AC) : ALab → Nat → Prop
  | (_, 0, _), q => q < 1 + 4 * z.mt
  | (k, 1, n), q => useW5 z k ∧ isW5 z k ((n - 1) % w5num z k) q
  | (k, 2, i), q => isW5 z k (trp z k i).1 q
  | (_, 6, _), q => q < 1 + 4 * z.mt
  | (_, 8, _), q => q < 1 + 4 * z.mt
  | _, _ => False

/-- Tiles that a task uses. -/
def tR (z : AC) (Z : AM M) (l : ALab) (x : M × Nat × Nat) : Prop :=
  (∃ m c, x = Z.a m c ∧ rA z l m c) ∨ (∃ q, x = Z.W.at' q 0 ∧ rW z l q) ∨ (x.1 = Z.T.id ∧ l.2.1 = 10) ∨
    (x = Z.p (l.1 + 1) ∧ (l.2.1 = 4 ∨ l.2.1 = 5 ∨ l.2.1 = 9))
/-- Tiles that a task writes. -/
def tW (z : AC) (Z : AM M) (l : ALab) (x : M × Nat × Nat) : Prop :=
  (∃ m c, x = Z.a m c ∧ wA z l m c) ∨ (∃ q, x = Z.W.at' q 0 ∧ wW z l q) ∨ (x.1 = Z.T.id ∧ l.2.1 = 10) ∨
    (x = Z.p (l.1 + 1) ∧ l.2.1 = 4)

/-- A task stays within sets of tiles. -/
def Ft (R W : M × Nat × Nat → Prop) (t : TTask (M × Nat × Nat) α) : Prop :=
  (∀ x i j, t.rd x i j ∨ t.wr x i j → R x) ∧ (∀ x i j, t.wr x i j → W x)

theorem ker_ft {R W : M × Nat × Nat → Prop} {a b c : M × Nat × Nat} {da db dc : Nat × Nat} {K : Tl α → Tl α → Tl α → Tl α}
    (ha : R a) (hb : R b) (hc : R c) (hw : W c) : Ft R W (ker a b c da db dc K) := by
  constructor
  · rintro x i j ((⟨rfl, _⟩ | ⟨rfl, _⟩) | ⟨rfl, _⟩) <;> assumption
  · rintro x i j ⟨rfl, _⟩; exact hw

theorem seq_ft {R W : M × Nat × Nat → Prop} {d : List ((M × Nat × Nat) × Bool)} {Q : List (TTask (M × Nat × Nat) α)} (h : ∀ t ∈ Q, Ft R W t) :
    Ft R W (seqT d Q) := by
  constructor
  · rintro x i j (⟨t, ht, hx⟩ | ⟨t, ht, hx⟩)
    · exact (h t ht).1 x i j (Or.inl hx)
    · exact (h t ht).1 x i j (Or.inr hx)
  · rintro x i j ⟨t, ht, hx⟩
    exact (h t ht).2 x i j hx

theorem pre_ft (hk : k < z.mt) {i : Nat} : ∀ t ∈ preT (α := α) dv z Z k, Ft (tR z Z (k, 0, i)) (tW z Z (k, 0, i)) t := by
  have hA : ∀ c, c ≤ k → tR z Z (k, 0, i) (Z.a k c) := fun c hc => Or.inl ⟨k, c, rfl, rfl, hc⟩
  have hW : ∀ q, q < 1 + 4 * z.mt → tR z Z (k, 0, i) (Z.W.at' q 0) := fun q hq => Or.inr (Or.inl ⟨q, rfl, hq⟩)
  have hV : ∀ q, q < 1 + 4 * z.mt → tW z Z (k, 0, i) (Z.W.at' q 0) := fun q hq => Or.inr (Or.inl ⟨q, rfl, hq⟩)
  have bt : ∀ m n, m < z.mt → m - n ≤ 1 → 1 + 2 * z.mt + (m + (m - n) * z.mt) < 1 + 4 * z.mt := by
    intro m n hm hn
    have : (m - n) * z.mt ≤ 1 * z.mt := Nat.mul_le_mul_right _ hn
    omega
  apply pre_all
  case hg1 => exact fun m h0 hm => ker_ft (hW _ (bt _ _ (by omega) (by omega))) (hA _ (by omega)) (hW _ (by omega)) (hV _ (by omega))
  case hg2 => exact fun m h0 hm => ker_ft (hW _ (bt _ _ (by omega) (by omega))) (hA _ (by omega)) (hW _ (by omega)) (hV _ (by omega))
  case hg3 => exact fun m h0 hm => ker_ft (hW _ (bt _ _ (by omega) (by omega))) (hA _ (by omega)) (hW _ (by omega)) (hV _ (by omega))
  case hw1 => exact fun m be q h1 h0 hm hq => ker_ft (hA _ (by omega)) (hW _ (by omega)) (hW _ (by omega)) (hV _ (by omega))
  case hw2 => exact fun p q h1 hp hq => ker_ft (hW _ (by omega)) (hW _ (by omega)) (hW _ (by omega)) (hV _ (by omega))
  case hc => exact ker_ft (hA _ (by omega)) (hA _ (by omega)) (hW _ (bt _ _ (by omega) (by omega))) (hV _ (bt _ _ (by omega) (by omega)))
  case he => exact ker_ft (hW _ (bt _ _ (by omega) (by omega))) (hW _ (bt _ _ (by omega) (by omega))) (hW _ (bt _ _ (by omega) (by omega))) (hV _ (bt _ _ (by omega) (by omega)))
  case ha => exact fun h1 => ker_ft (hW _ (by omega)) (hW _ (by omega)) (hW _ (bt _ _ (by omega) (by omega))) (hV _ (bt _ _ (by omega) (by omega)))
  case hd1 => exact fun h1 => ker_ft (hA _ (by omega)) (hW _ (bt _ _ (by omega) (by omega))) (hW _ (by omega)) (hV _ (by omega))
  case hd2 => exact fun h1 => ker_ft (hW _ (by omega)) (hA _ (by omega)) (hW _ (bt _ _ (by omega) (by omega))) (hV _ (bt _ _ (by omega) (by omega)))
  case hs => exact fun h1 => ker_ft (hA _ (by omega)) (hA _ (by omega)) (hW _ (bt _ _ (by omega) (by omega))) (hV _ (bt _ _ (by omega) (by omega)))
  case hh1 => exact fun h1 => ker_ft (hW _ (bt _ _ (by omega) (by omega))) (hA _ (by omega)) (hW _ (by omega)) (hV _ (by omega))
  case hh2 => exact fun be h1 => ker_ft (hW _ (bt _ _ (by omega) (by omega))) (hA _ (by omega)) (hW _ (by omega)) (hV _ (by omega))

theorem regP_tile (hz : z.OK) (hZ : AMOK z Z) (hk : k + 1 < z.mt) {x : M × Nat × Nat} {i j : Nat}
    (h : Z.P.reg (fun i j => (k + 1) * z.b ≤ i ∧ i < (k + 1) * z.b + pcnt z k ∧ j = 0) x i j) : x = Z.p (k + 1) := by
  have := pcnt_le hz hk
  obtain ⟨r, c, hR, rfl⟩ := reg_tile hZ.p h
  rw [div_tile (k := k + 1) (by omega) (by omega), hR.2.2, Nat.zero_div]; rfl

theorem aTask_ft (hz : z.OK) (hZ : AMOK z Z) {l : ALab} (hl : l ∈ aLabs (α := α) dv z Z) :
    Ft (tR z Z l) (tW z Z l) (aTask E mag dv big z Z l) := by
  obtain ⟨k, st, i⟩ := l
  obtain ⟨hk, h⟩ := mem_aLabs.mp hl
  rcases h with ⟨rfl, hi⟩ | ⟨rfl, rfl⟩ | ⟨hk1, h⟩
  · show Ft _ _ (((preT dv z Z k)[i]?).getD (kExp 0 Z.w0))
    rw [List.getElem?_eq_getElem hi]
    exact pre_ft hk _ (List.getElem_mem hi)
  · show Ft _ _ (copyTT z Z k)
    have bt : ∀ m n, m < z.mt → m - n ≤ 1 → 1 + 2 * z.mt + (m + (m - n) * z.mt) < 1 + 4 * z.mt := by
      intro m n hm hn
      have : (m - n) * z.mt ≤ 1 * z.mt := Nat.mul_le_mul_right _ hn
      omega
    have hW : ∀ m n, m < z.mt → m - n ≤ 1 → tR z Z (k, 10, 0) (Z.t z m n) := fun m n h1 h2 => Or.inr (Or.inl ⟨_, rfl, bt m n h1 h2⟩)
    have hg : ∀ m n, tR z Z (k, 10, 0) (Z.g m n) := fun m n => Or.inr (Or.inr (Or.inl ⟨rfl, rfl⟩))
    have hv : ∀ m n, tW z Z (k, 10, 0) (Z.g m n) := fun m n => Or.inr (Or.inr (Or.inl ⟨rfl, rfl⟩))
    refine seq_ft fun t ht => ?_
    simp only [List.mem_append, List.mem_singleton] at ht
    rcases ht with (rfl | ht) | ht
    · exact ker_ft (hW _ _ hk (by omega)) (hW _ _ hk (by omega)) (hg _ _) (hv _ _)
    · split at ht
      · rw [List.mem_singleton] at ht; subst ht
        exact ker_ft (hW _ _ (by assumption) (by omega)) (hW _ _ (by assumption) (by omega)) (hg _ _) (hv _ _)
      · cases ht
    · split at ht
      · rw [List.mem_singleton] at ht; subst ht
        exact ker_ft (hW _ _ hk (by omega)) (hW _ _ hk (by omega)) (hg _ _) (hv _ _)
      · cases ht
  have h1W : ∀ (l : ALab) q, rW z l q → tR z Z l (Z.W.at' q 0) := fun l q h => Or.inr (Or.inl ⟨q, rfl, h⟩)
  have h2W : ∀ (l : ALab) q, wW z l q → tW z Z l (Z.W.at' q 0) := fun l q h => Or.inr (Or.inl ⟨q, rfl, h⟩)
  have h1A : ∀ (l : ALab) m c, rA z l m c → tR z Z l (Z.a m c) := fun l m c h => Or.inl ⟨m, c, rfl, h⟩
  have h2A : ∀ (l : ALab) m c, wA z l m c → tW z Z l (Z.a m c) := fun l m c h => Or.inl ⟨m, c, rfl, h⟩
  have bt : 1 + 2 * z.mt + (k + 1 + (k + 1 - k) * z.mt) < 1 + 4 * z.mt := by
    have : (k + 1 - k) * z.mt = 1 * z.mt := by congr 1; omega
    omega
  rcases h with ⟨rfl, h1, h2⟩ | ⟨rfl, h0, h5, hi⟩ | ⟨rfl, h0, h5, rfl⟩ | ⟨rfl, rfl⟩ | ⟨rfl, h1, h2⟩ | ⟨rfl, rfl⟩ | ⟨rfl, rfl⟩ | ⟨rfl, h0, rfl⟩ | ⟨rfl, rfl⟩
  · show Ft _ _ (if useW5 z k then w5MT z Z k i else colT z Z k i)
    split
    · rename_i h5
      refine seq_ft fun t ht => ?_
      obtain ⟨m, hm, rfl⟩ := List.mem_map.mp ht
      rw [List.mem_range'_1] at hm
      have hw : isW5 z k ((i - 1) % w5num z k) (1 + 4 * z.mt + ((m - k - 1) + ((i - 1) % w5num z k) * (z.mt - k - 1))) := ⟨m - k - 1, by omega, rfl⟩
      exact ker_ft (h1A (k, 1, i) _ _ ⟨by omega, Or.inl rfl⟩) (h1W (k, 1, i) _ (Or.inl rfl)) (h1W (k, 1, i) _ (Or.inr ⟨h5, hw⟩)) (h2W (k, 1, i) _ ⟨h5, hw⟩)
    · rename_i h5
      refine seq_ft fun t ht => ?_
      obtain ⟨m, hm, rfl⟩ := List.mem_map.mp ht
      rw [List.mem_range'_1] at hm
      exact ker_ft (h1A (k, 1, i) _ _ ⟨by omega, Or.inl rfl⟩) (h1W (k, 1, i) _ (Or.inl rfl)) (h1A (k, 1, i) _ _ ⟨by omega, Or.inr ⟨h5, rfl⟩⟩)
        (h2A (k, 1, i) _ _ ⟨by omega, h5, rfl⟩)
  · show Ft _ _ (w5ST z Z k (trp z k i))
    refine seq_ft fun t ht => ?_
    obtain ⟨m, hm, rfl⟩ := List.mem_map.mp ht
    rw [List.mem_range'_1] at hm
    have hw1 : isW5 z k (trp z k i).1 (1 + 4 * z.mt + ((m - k - 1) + (trp z k i).1 * (z.mt - k - 1))) := ⟨m - k - 1, by omega, rfl⟩
    have hw2 : isW5 z k (trp z k i).2 (1 + 4 * z.mt + ((m - k - 1) + (trp z k i).2 * (z.mt - k - 1))) := ⟨m - k - 1, by omega, rfl⟩
    exact ker_ft (h1W (k, 2, i) _ (Or.inr hw2)) (h1W (k, 2, i) _ (Or.inr hw2)) (h1W (k, 2, i) _ (Or.inl hw1)) (h2W (k, 2, i) _ hw1)
  · show Ft _ _ (w5AT z Z k)
    refine seq_ft fun t ht => ?_
    obtain ⟨m, hm, rfl⟩ := List.mem_map.mp ht
    rw [List.mem_range'_1] at hm
    have hw1 : isW5 z k 0 (1 + 4 * z.mt + (m - k - 1)) := ⟨m - k - 1, by omega, by omega⟩
    exact ker_ft (h1W (k, 3, 0) _ hw1) (h1W (k, 3, 0) _ hw1) (h1A (k, 3, 0) _ _ ⟨by omega, rfl⟩) (h2A (k, 3, 0) _ _ ⟨by omega, rfl⟩)
  · show Ft _ _ (panelT E mag dv big z Z k)
    have e := hz.mvb hk1
    have hb := hz.b
    have hA : ∀ x i j, Z.A.reg (fun r c => (k + 1) * z.b ≤ r ∧ r < z.N ∧ k * z.b ≤ c ∧ c < k * z.b + z.mv k) x i j → ∃ m, k < m ∧ x = Z.a m k := by
      intro x i j h
      obtain ⟨r, c, hR, rfl⟩ := reg_tile hZ.a h
      rw [div_tile (k := k) hR.2.2.1 (by omega)]
      exact ⟨r / z.b, (Nat.le_div_iff_mul_le hz.b).mpr hR.1, rfl⟩
    constructor
    · rintro x i j (h | h | h)
      · exact h.elim
      · obtain ⟨m, hm, rfl⟩ := hA _ _ _ h
        exact h1A (k, 4, 0) _ _ ⟨hm, rfl⟩
      · exact Or.inr (Or.inr (Or.inr ⟨regP_tile hz hZ hk1 h, Or.inl rfl⟩))
    · rintro x i j (h | h)
      · obtain ⟨m, hm, rfl⟩ := hA _ _ _ h
        exact h2A (k, 4, 0) _ _ ⟨hm, rfl⟩
      · exact Or.inr (Or.inr (Or.inr ⟨regP_tile hz hZ hk1 h, rfl⟩))
  · show Ft _ _ (rowT E z Z k i)
    have hA : ∀ x i' j, Z.A.reg (fun r c => (k + 1) * z.b ≤ r ∧ r < z.N ∧ (i - 1) * z.b ≤ c ∧ c < (i - 1) * z.b + z.b) x i' j → ∃ m, k < m ∧ x = Z.a m (i - 1) := by
      intro x i' j h
      obtain ⟨r, c, hR, rfl⟩ := reg_tile hZ.a h
      rw [div_tile (k := i - 1) hR.2.2.1 (by omega)]
      exact ⟨r / z.b, (Nat.le_div_iff_mul_le hz.b).mpr hR.1, rfl⟩
    constructor
    · rintro x i' j (h | h)
      · exact Or.inr (Or.inr (Or.inr ⟨regP_tile hz hZ hk1 h, Or.inr (Or.inl rfl)⟩))
      · obtain ⟨m, hm, rfl⟩ := hA _ _ _ h
        exact h1A (k, 5, i) _ _ ⟨hm, rfl⟩
    · intro x i' j h
      obtain ⟨m, hm, rfl⟩ := hA _ _ _ h
      exact h2A (k, 5, i) _ _ ⟨hm, rfl⟩
  · show Ft _ _ (kCpU (α := α) (z.mv (k + 1)) (z.mv k) (Z.a (k + 1) k) (Z.t z (k + 1) k))
    exact ker_ft (h1A (k, 6, 0) _ _ ⟨rfl, rfl⟩) (h1A (k, 6, 0) _ _ ⟨rfl, rfl⟩) (h1W (k, 6, 0) _ bt) (h2W (k, 6, 0) _ bt)
  · show Ft _ _ (kSetU (α := α) (z.mv (k + 1)) (z.mv k) (Z.a (k + 1) k))
    exact ker_ft (h1A (k, 7, 0) _ _ ⟨rfl, rfl⟩) (h1A (k, 7, 0) _ _ ⟨rfl, rfl⟩) (h1A (k, 7, 0) _ _ ⟨rfl, rfl⟩) (h2A (k, 7, 0) _ _ ⟨rfl, rfl⟩)
  · show Ft _ _ (kTrsm dv (z.mv (k + 1)) (z.mv k) (Z.a k (k - 1)) (Z.t z (k + 1) k))
    exact ker_ft (h1A (k, 8, 0) _ _ ⟨rfl, rfl⟩) (h1A (k, 8, 0) _ _ ⟨rfl, rfl⟩) (h1W (k, 8, 0) _ bt) (h2W (k, 8, 0) _ bt)
  · show Ft _ _ (symT E z Z k)
    have hA : ∀ x i j, Z.A.reg (fun r c => (k + 1) * z.b ≤ c ∧ c ≤ r ∧ r < z.N) x i j → ∃ m c, k < c ∧ c ≤ m ∧ x = Z.a m c := by
      intro x i j h
      obtain ⟨r, c, hR, rfl⟩ := reg_tile hZ.a h
      exact ⟨r / z.b, c / z.b, (Nat.le_div_iff_mul_le hz.b).mpr hR.1, Nat.div_le_div_right hR.2.1, rfl⟩
    constructor
    · rintro x i' j (h | h)
      · exact Or.inr (Or.inr (Or.inr ⟨regP_tile hz hZ hk1 h, Or.inr (Or.inr rfl)⟩))
      · obtain ⟨m, c, h1, h2, rfl⟩ := hA _ _ _ h
        exact h1A (k, 9, 0) _ _ ⟨h1, h2⟩
    · intro x i' j h
      obtain ⟨m, c, h1, h2, rfl⟩ := hA _ _ _ h
      exact h2A (k, 9, 0) _ _ ⟨h1, h2⟩

/-- What a conflict between two tasks means for the tiles they use. -/
theorem aTask_conf (hz : z.OK) (hZ : AMOK z Z) {x y : ALab} (hx : x ∈ aLabs (α := α) dv z Z) (hy : y ∈ aLabs (α := α) dv z Z)
    (hc : TConflict (aTask E mag dv big z Z x) (aTask E mag dv big z Z y)) :
    (∃ m c, (wA z x m c ∧ rA z y m c ∧ ∃ i j, (aTask E mag dv big z Z y).rd (Z.a m c) i j ∨ (aTask E mag dv big z Z y).wr (Z.a m c) i j) ∨
      (rA z x m c ∧ wA z y m c)) ∨
    (∃ q, (wW z x q ∧ rW z y q ∧ ∃ i j, (aTask E mag dv big z Z x).wr (Z.W.at' q 0) i j) ∨
      (rW z x q ∧ wW z y q ∧ ∃ i j, (aTask E mag dv big z Z y).wr (Z.W.at' q 0) i j)) ∨
    (x.2.1 = 10 ∧ y.2.1 = 10) ∨
    (x.1 = y.1 ∧ (x.2.1 = 4 ∧ (y.2.1 = 4 ∨ y.2.1 = 5 ∨ y.2.1 = 9) ∨ (x.2.1 = 4 ∨ x.2.1 = 5 ∨ x.2.1 = 9) ∧ y.2.1 = 4)) := by
  have fx := aTask_ft (E := E) (mag := mag) (big := big) hz hZ hx
  have fy := aTask_ft (E := E) (mag := mag) (big := big) hz hZ hy
  have eA : ∀ {m c m' c'}, Z.a m c = Z.a m' c' → m = m' ∧ c = c' := fun h => TMat.at'_inj.mp h
  have eW : ∀ {q q'}, Z.W.at' q 0 = Z.W.at' q' 0 → q = q' := fun h => (TMat.at'_inj.mp h).1
  have eP : ∀ {q q'}, Z.p q = Z.p q' → q = q' := fun h => (TMat.at'_inj.mp h).1
  obtain ⟨t, i, j, hc⟩ := hc
  have hc' : ((aTask E mag dv big z Z x).wr t i j ∧ tR z Z y t ∧ ((aTask E mag dv big z Z y).rd t i j ∨ (aTask E mag dv big z Z y).wr t i j)) ∨ (tR z Z x t ∧ (aTask E mag dv big z Z y).wr t i j) := by
    rcases hc with ⟨h1, h2⟩ | ⟨h1, h2⟩
    · exact Or.inl ⟨h1, fy.1 _ _ _ h2, h2⟩
    · exact Or.inr ⟨fx.1 _ _ _ (Or.inl h1), h2⟩
  rcases hc' with ⟨h1, h2, h3⟩ | ⟨h2, h1⟩
  · rcases fx.2 _ _ _ h1 with ⟨m, c, rfl, hw⟩ | ⟨q, rfl, hw⟩ | ⟨e, hw⟩ | ⟨rfl, hw⟩
    · rcases h2 with ⟨m', c', e, hr⟩ | ⟨q', e, hr⟩ | ⟨e, hr⟩ | ⟨e, hr⟩
      · obtain ⟨rfl, rfl⟩ := eA e; exact Or.inl ⟨m, c, Or.inl ⟨hw, hr, i, j, h3⟩⟩
      · exact absurd (congrArg Prod.fst e) hZ.aw
      · exact absurd e hZ.at'
      · exact absurd (congrArg Prod.fst e) hZ.ap
    · rcases h2 with ⟨m', c', e, hr⟩ | ⟨q', e, hr⟩ | ⟨e, hr⟩ | ⟨e, hr⟩
      · exact absurd (congrArg Prod.fst e).symm hZ.aw
      · obtain rfl := eW e; exact Or.inr (Or.inl ⟨q, Or.inl ⟨hw, hr, i, j, h1⟩⟩)
      · exact absurd e.symm hZ.tw
      · exact absurd (congrArg Prod.fst e) hZ.wp
    · rcases h2 with ⟨m', c', rfl, hr⟩ | ⟨q', rfl, hr⟩ | ⟨_, hr⟩ | ⟨rfl, hr⟩
      · exact absurd e hZ.at'
      · exact absurd e.symm hZ.tw
      · exact Or.inr (Or.inr (Or.inl ⟨hw, hr⟩))
      · exact absurd e.symm hZ.tp
    · rcases h2 with ⟨m', c', e, hr⟩ | ⟨q', e, hr⟩ | ⟨e, hr⟩ | ⟨e, hr⟩
      · exact absurd (congrArg Prod.fst e).symm hZ.ap
      · exact absurd (congrArg Prod.fst e).symm hZ.wp
      · exact absurd e.symm hZ.tp
      · have := eP e; exact Or.inr (Or.inr (Or.inr ⟨by omega, Or.inl ⟨hw, hr⟩⟩))
  · rcases fy.2 _ _ _ h1 with ⟨m, c, rfl, hw⟩ | ⟨q, rfl, hw⟩ | ⟨e, hw⟩ | ⟨rfl, hw⟩
    · rcases h2 with ⟨m', c', e, hr⟩ | ⟨q', e, hr⟩ | ⟨e, hr⟩ | ⟨e, hr⟩
      · obtain ⟨rfl, rfl⟩ := eA e; exact Or.inl ⟨m, c, Or.inr ⟨hr, hw⟩⟩
      · exact absurd (congrArg Prod.fst e) hZ.aw
      · exact absurd e hZ.at'
      · exact absurd (congrArg Prod.fst e) hZ.ap
    · rcases h2 with ⟨m', c', e, hr⟩ | ⟨q', e, hr⟩ | ⟨e, hr⟩ | ⟨e, hr⟩
      · exact absurd (congrArg Prod.fst e).symm hZ.aw
      · obtain rfl := eW e; exact Or.inr (Or.inl ⟨q, Or.inr ⟨hr, hw, i, j, h1⟩⟩)
      · exact absurd e.symm hZ.tw
      · exact absurd (congrArg Prod.fst e) hZ.wp
    · rcases h2 with ⟨m', c', rfl, hr⟩ | ⟨q', rfl, hr⟩ | ⟨_, hr⟩ | ⟨rfl, hr⟩
      · exact absurd e hZ.at'
      · exact absurd e.symm hZ.tw
      · exact Or.inr (Or.inr (Or.inl ⟨hr, hw⟩))
      · exact absurd e.symm hZ.tp
    · rcases h2 with ⟨m', c', e, hr⟩ | ⟨q', e, hr⟩ | ⟨e, hr⟩ | ⟨e, hr⟩
      · exact absurd (congrArg Prod.fst e).symm hZ.ap
      · exact absurd (congrArg Prod.fst e).symm hZ.wp
      · exact absurd e.symm hZ.tp
      · have := eP e; exact Or.inr (Or.inr (Or.inr ⟨by omega, Or.inr ⟨hr, hw⟩⟩))

/-- Tasks that declare all their accesses. -/
theorem aTask_decl {l : ALab} (hl : l ∈ aLabs (α := α) dv z Z) (h : l.2.1 = 0 ∨ l.2.1 = 6 ∨ l.2.1 = 7 ∨ l.2.1 = 8 ∨ l.2.1 = 10) :
    (aTask E mag dv big z Z l).Declared := by
  obtain ⟨k, st, i⟩ := l
  obtain ⟨hk, hm⟩ := mem_aLabs.mp hl
  simp only at h
  rcases h with rfl | rfl | rfl | rfl | rfl
  · show TTask.Declared (((preT dv z Z k)[i]?).getD (kExp 0 Z.w0))
    rcases hm with ⟨_, hi⟩ | hm | hm
    · rw [List.getElem?_eq_getElem hi]
      exact (pre_ker _ (List.getElem_mem hi)).decl
    · omega
    · omega
  · exact op2_declared
  · exact op2_declared
  · exact op2_declared
  · show (copyTT (α := α) z Z k).Declared
    unfold copyTT
    refine seqT_declared ?_ ?_
    · intro t ht x i j hx
      simp only [List.mem_append, List.mem_singleton] at ht
      rcases ht with (rfl | ht) | ht
      · refine ⟨false, ?_⟩
        rcases hx with ⟨rfl, _⟩ | ⟨rfl, _⟩ <;> simp
      · split at ht
        · rename_i h1
          rw [List.mem_singleton] at ht; subst ht
          refine ⟨false, ?_⟩
          have e : min (k + 1) (z.mt - 1) = k + 1 := by omega
          rcases hx with ⟨rfl, _⟩ | ⟨rfl, _⟩ <;> simp [e]
        · cases ht
      · split at ht
        · rw [List.mem_singleton] at ht; subst ht
          refine ⟨false, ?_⟩
          rcases hx with ⟨rfl, _⟩ | ⟨rfl, _⟩ <;> simp
        · cases ht
    · intro t ht x i j hx
      simp only [List.mem_append, List.mem_singleton] at ht
      rcases ht with (rfl | ht) | ht
      · rcases hx with ⟨rfl, _⟩; simp
      · split at ht
        · rename_i h1
          rw [List.mem_singleton] at ht; subst ht
          have e : min (k + 1) (z.mt - 1) = k + 1 := by omega
          rcases hx with ⟨rfl, _⟩; simp [e]
        · cases ht
      · split at ht
        · rw [List.mem_singleton] at ht; subst ht
          rcases hx with ⟨rfl, _⟩; simp
        · cases ht

end

end Verif.Aasen

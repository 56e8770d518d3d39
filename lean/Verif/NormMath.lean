/-
Element loops of the norm kernels and what they compute.
-/
import Verif.Par
import Verif.Mat
import Mathlib.Analysis.RCLike.Basic
import Mathlib.Analysis.SpecialFunctions.Sqrt
import Mathlib.Algebra.Order.BigOperators.Group.Finset

namespace Verif.Norm

open Verif.Layout Verif.Tile Finset

set_option linter.unusedSectionVars false

universe v

/-! ### Loops over arrays -/

/-- `value[i] += x`. -/
def addAt (v : Nat → ℝ) (i : Nat) (x : ℝ) : Nat → ℝ := fun k => if k = i then v k + x else v k

/-- `value[i] = x`. -/
def putAt (v : Nat → ℝ) (i : Nat) (x : ℝ) : Nat → ℝ := fun k => if k = i then x else v k

theorem fold_add {β : Type v} {F : (Nat → ℝ) → β → Nat → ℝ} {G : β → Nat → ℝ}
    (h : ∀ v x k, F v x k = v k + G x k) (L : List β) (v0 : Nat → ℝ) (k : Nat) :
    L.foldl F v0 k = v0 k + (L.map fun x => G x k).sum := by
  induction L generalizing v0 with
  | nil => simp
  | cons x L ih => rw [List.foldl_cons, ih, h, List.map_cons, List.sum_cons]; ring

theorem fold_put {F : (Nat → ℝ) → Nat → Nat → ℝ} {X : Nat → ℝ}
    (h : ∀ v x k, F v x k = if k = x then X x else v k) {L : List Nat} (v0 : Nat → ℝ) (k : Nat) :
    L.foldl F v0 k = if k ∈ L then X k else v0 k := by
  induction L generalizing v0 with
  | nil => simp
  | cons x L ih =>
    rw [List.foldl_cons, ih, h]
    by_cases h1 : k ∈ L
    · simp [h1]
    · by_cases h2 : k = x <;> simp [h1, h2]

theorem sum_span (f : Nat → ℝ) (lo hi : Nat) : ((span lo hi).map f).sum = ∑ i ∈ Ico lo hi, f i := by
  rw [← List.sum_toFinset f nodup_span]
  apply Finset.sum_congr _ (fun _ _ => rfl)
  ext x; simp [mem_span]

theorem foldl_sum (f : Nat → ℝ) (L : List Nat) (v0 : ℝ) : L.foldl (fun v i => v + f i) v0 = v0 + (L.map f).sum := by
  induction L generalizing v0 with
  | nil => simp
  | cons x L ih => rw [List.foldl_cons, ih, List.map_cons, List.sum_cons]; ring

theorem addAt_apply (v : Nat → ℝ) (i : Nat) (x : ℝ) (k : Nat) : addAt v i x k = v k + if i = k then x else 0 := by
  unfold addAt; by_cases h : k = i
  · rw [if_pos h, if_pos h.symm]
  · rw [if_neg h, if_neg (fun e => h e.symm), add_zero]

theorem sum_ite_Ico (f : Nat → ℝ) (lo hi k : Nat) :
    ∑ i ∈ Ico lo hi, (if i = k then f i else 0) = if lo ≤ k ∧ k < hi then f k else 0 := by
  rw [Finset.sum_ite_eq' (Ico lo hi) k f]
  simp only [Finset.mem_Ico]

/-- Adding `f i` to the elements `i` of a range. -/
theorem addRange (f : Nat → ℝ) (lo hi : Nat) (v0 : Nat → ℝ) (k : Nat) :
    (span lo hi).foldl (fun v i => addAt v i (f i)) v0 k = v0 k + if lo ≤ k ∧ k < hi then f k else 0 := by
  rw [fold_add (G := fun i k => if i = k then f i else 0) (fun v x k => addAt_apply _ _ _ _), sum_span, sum_ite_Ico]

/-- Setting the elements of a range. -/
theorem putRange (x : ℝ) (lo hi : Nat) (v0 : Nat → ℝ) (k : Nat) :
    (span lo hi).foldl (fun v i => putAt v i x) v0 k = if lo ≤ k ∧ k < hi then x else v0 k := by
  rw [fold_put (F := fun v i => putAt v i x) (X := fun _ => x) (fun v x k => rfl)]
  simp only [mem_span]

/-! ### Maxima -/

/-- Greatest of 0 and the values at the positions `L`, as computed by `xLANGE`, `xLANSY`,
`xLANTR` for the max norm (LAPACK). -/
def maxOf (L : List (Nat × Nat)) (w : Nat → Nat → ℝ) : ℝ := L.foldl (fun v p => max v (w p.1 p.2)) 0

theorem foldl_max_le {β : Type v} (f : β → ℝ) (L : List β) (v0 x : ℝ) :
    L.foldl (fun v p => max v (f p)) v0 ≤ x ↔ v0 ≤ x ∧ ∀ p ∈ L, f p ≤ x := by
  induction L generalizing v0 with
  | nil => simp
  | cons p L ih =>
    rw [List.foldl_cons, ih, max_le_iff]
    simp only [List.mem_cons, forall_eq_or_imp]
    exact and_assoc

theorem maxOf_le {L : List (Nat × Nat)} {w : Nat → Nat → ℝ} {x : ℝ} :
    maxOf L w ≤ x ↔ 0 ≤ x ∧ ∀ p ∈ L, w p.1 p.2 ≤ x := foldl_max_le (fun p : Nat × Nat => w p.1 p.2) L 0 x

theorem maxOf_nonneg (L : List (Nat × Nat)) (w : Nat → Nat → ℝ) : 0 ≤ maxOf L w := (maxOf_le.mp le_rfl).1

/-- All positions of an `m`-by-`n` matrix, column by column. -/
def allPos (m n : Nat) : List (Nat × Nat) := (List.range n).flatMap fun j => (List.range m).map fun i => (i, j)

theorem mem_allPos {m n : Nat} {p : Nat × Nat} : p ∈ allPos m n ↔ p.1 < m ∧ p.2 < n := by
  unfold allPos
  simp only [List.mem_flatMap, List.mem_map, List.mem_range]
  constructor
  · rintro ⟨j, hj, i, hi, rfl⟩; exact ⟨hi, hj⟩
  · rintro ⟨h1, h2⟩; exact ⟨p.2, h2, p.1, h1, rfl⟩

/-- Infinity norm of a `p`-by-`q` matrix: LAPACK `dlange` with `norm = 'I'`. -/
def infNorm (p q : Nat) (w : Nat → Nat → ℝ) : ℝ :=
  (List.range p).foldl (fun v i => max v (∑ k ∈ range q, |w i k|)) 0

theorem infNorm_le {p q : Nat} {w : Nat → Nat → ℝ} {x : ℝ} :
    infNorm p q w ≤ x ↔ 0 ≤ x ∧ ∀ i < p, ∑ k ∈ range q, |w i k| ≤ x := by
  unfold infNorm
  rw [foldl_max_le (fun i => ∑ k ∈ range q, |w i k|)]
  simp only [List.mem_range]

/-- The number with the property of a greatest element of a finite family is this element. -/
theorem isGreatest_of_le {β : Type} {S : Finset β} (hS : S.Nonempty) {f : β → ℝ} (hf : ∀ a ∈ S, 0 ≤ f a) {v : ℝ}
    (h : ∀ x, v ≤ x ↔ 0 ≤ x ∧ ∀ a ∈ S, f a ≤ x) : IsGreatest {x | ∃ a ∈ S, x = f a} v := by
  have h1 := (h v).mp le_rfl
  obtain ⟨a, ha, hm⟩ := Finset.exists_max_image S f hS
  have h2 : v ≤ f a := (h _).mpr ⟨hf a ha, hm⟩
  refine ⟨⟨a, ha, le_antisymm h2 (h1.2 a ha)⟩, ?_⟩
  rintro x ⟨b, hb, rfl⟩
  exact h1.2 b hb

/-! ### Sums of squares -/

/-- `(scale, sumsq)` stands for `scale² * sumsq`. -/
structure Ssq (p : ℝ × ℝ) (t : ℝ) : Prop where
  s0 : 0 ≤ p.1
  q0 : 0 ≤ p.2
  eq : p.1 ^ 2 * p.2 = t

theorem Ssq.t0 {p : ℝ × ℝ} {t : ℝ} (h : Ssq p t) : 0 ≤ t := by
  rw [← h.eq]; exact mul_nonneg (sq_nonneg _) h.q0

theorem ssq_init : Ssq (0, 1) 0 := ⟨le_rfl, zero_le_one, by simp⟩

theorem Ssq.double {p : ℝ × ℝ} {t : ℝ} (h : Ssq p t) : Ssq (p.1, p.2 * 2) (2 * t) :=
  ⟨h.s0, by have := h.q0; positivity, by rw [← h.eq]; ring⟩

/-- `ssq` with the absolute value given (core_blas/core_ztrssq.c:23-36; the same computation is in
core_blas/core_zsyssq.c:42-51 and core_zhessq.c:42-51). -/
noncomputable def ssqStep (p : ℝ × ℝ) (absa : ℝ) : ℝ × ℝ :=
  if absa ≠ 0 then
    if p.1 < absa then (absa, 1 + p.2 * ((p.1 / absa) * (p.1 / absa)))
    else (p.1, p.2 + (absa / p.1) * (absa / p.1))
  else p

theorem Ssq.step {p : ℝ × ℝ} {t : ℝ} (h : Ssq p t) {x : ℝ} (hx : 0 ≤ x) : Ssq (ssqStep p x) (t + x ^ 2) := by
  obtain ⟨h1, h2, h3⟩ := h
  unfold ssqStep
  split
  · rename_i hn
    have hpos : 0 < x := lt_of_le_of_ne hx (Ne.symm hn)
    split
    · refine ⟨hx, by positivity, ?_⟩
      simp only
      rw [← h3]; field_simp; ring
    · rename_i hlt
      have hp : 0 < p.1 := lt_of_lt_of_le hpos (not_lt.mp hlt)
      refine ⟨h1, by positivity, ?_⟩
      simp only
      rw [← h3]; field_simp
  · rename_i hn
    have : x = 0 := not_not.mp hn
    subst this
    exact ⟨h1, h2, by rw [h3]; ring⟩

/-- One step of the reduction loops (core_blas/core_zgessq.c:64-70, core_zsyssq.c:90-98, 104-110). -/
noncomputable def ssqJoin (p : ℝ × ℝ) (a : ℝ × ℝ) : ℝ × ℝ :=
  if p.1 < a.1 then (a.1, a.2 + p.2 * ((p.1 / a.1) * (p.1 / a.1)))
  else if 0 < p.1 then (p.1, p.2 + a.2 * ((a.1 / p.1) * (a.1 / p.1)))
  else p

theorem Ssq.join {p a : ℝ × ℝ} {t u : ℝ} (h : Ssq p t) (ha : Ssq a u) : Ssq (ssqJoin p a) (t + u) := by
  obtain ⟨h1, h2, h3⟩ := h
  obtain ⟨a1, a2, a3⟩ := ha
  unfold ssqJoin
  split
  · rename_i hlt
    have hpos : 0 < a.1 := lt_of_le_of_lt h1 hlt
    refine ⟨a1, by positivity, ?_⟩
    simp only
    rw [← h3, ← a3]; field_simp; ring
  · rename_i hlt
    split
    · rename_i hp
      refine ⟨h1, by positivity, ?_⟩
      simp only
      rw [← h3, ← a3]; field_simp
    · rename_i hp
      have e : a.1 = 0 := by linarith
      have : u = 0 := by rw [← a3, e]; ring
      subst this
      exact ⟨h1, h2, by rw [h3]; ring⟩

/-- `scl*sqrt(sum)`. -/
noncomputable def ssqVal (p : ℝ × ℝ) : ℝ := p.1 * Real.sqrt p.2

theorem Ssq.val {p : ℝ × ℝ} {t : ℝ} (h : Ssq p t) : ssqVal p = Real.sqrt t := by
  unfold ssqVal
  rw [← h.eq, Real.sqrt_mul (sq_nonneg _), Real.sqrt_sq h.s0]

theorem fold_ssq {β : Type v} {F : ℝ × ℝ → β → ℝ × ℝ} {G : β → ℝ} (L : List β)
    (h : ∀ p t, ∀ x ∈ L, Ssq p t → Ssq (F p x) (t + G x)) {p : ℝ × ℝ} {t : ℝ} (hp : Ssq p t) :
    Ssq (L.foldl F p) (t + (L.map G).sum) := by
  induction L generalizing p t with
  | nil => simpa using hp
  | cons x L ih =>
    rw [List.foldl_cons, List.map_cons, List.sum_cons, ← add_assoc]
    exact ih (fun p t x hx => h p t x (by simp [hx])) (h p t x (by simp) hp)

/-- Contract of LAPACK `zlassq`: it updates `(scale, sumsq)` by the sum of squares of a vector. -/
def IsLassq {𝕜 : Type v} [RCLike 𝕜] (lsq : ℝ × ℝ → List 𝕜 → ℝ × ℝ) : Prop :=
  ∀ p l, 0 ≤ p.1 → 0 ≤ p.2 → 0 ≤ (lsq p l).1 ∧ 0 ≤ (lsq p l).2 ∧
    (lsq p l).1 ^ 2 * (lsq p l).2 = p.1 ^ 2 * p.2 + (l.map fun x => ‖x‖ ^ 2).sum

theorem IsLassq.ssq {𝕜 : Type v} [RCLike 𝕜] {lsq : ℝ × ℝ → List 𝕜 → ℝ × ℝ} (h : IsLassq lsq) {p : ℝ × ℝ} {t : ℝ}
    (hp : Ssq p t) (l : List 𝕜) : Ssq (lsq p l) (t + (l.map fun x => ‖x‖ ^ 2).sum) := by
  obtain ⟨h1, h2, h3⟩ := h p l hp.s0 hp.q0
  exact ⟨h1, h2, by rw [h3, hp.eq]⟩

/-- The contract can be met. -/
theorem exists_lassq (𝕜 : Type v) [RCLike 𝕜] : ∃ lsq : ℝ × ℝ → List 𝕜 → ℝ × ℝ, IsLassq lsq := by
  refine ⟨fun p l => l.foldl (fun p x => ssqStep p ‖x‖) p, fun p l h1 h2 => ?_⟩
  have := fold_ssq (F := fun p (x : 𝕜) => ssqStep p ‖x‖) (G := fun x => ‖x‖ ^ 2) l
    (fun p t x _ hp => hp.step (norm_nonneg x)) (p := p) (t := p.1 ^ 2 * p.2) ⟨h1, h2, rfl⟩
  exact ⟨this.s0, this.q0, this.eq⟩

/-! ### From tiles to the matrix -/

section
variable {m n b : Nat} {E : Nat → Nat → ℝ}

theorem tiles_forall (hb : 0 < b) {P : Nat → Nat → Prop} :
    (∀ p < ceilDiv m b, ∀ q < ceilDiv n b, ∀ i < tdim m b p, ∀ j < tdim n b q, P (p * b + i) (q * b + j)) ↔
      ∀ r < m, ∀ c < n, P r c := by
  constructor
  · intro h r hr c hc
    have e1 : r / b * b + r % b = r := by rw [Nat.mul_comm]; exact Nat.div_add_mod r b
    have e2 : c / b * b + c % b = c := by rw [Nat.mul_comm]; exact Nat.div_add_mod c b
    have := h (r / b) ((lt_ceilDiv hb).mpr (by omega)) (c / b) ((lt_ceilDiv hb).mpr (by omega))
      (r % b) (mod_lt_tdim hb hr) (c % b) (mod_lt_tdim hb hc)
    rwa [e1, e2] at this
  · intro h p _ q _ i hi j hj
    have h1 := tdim_row.mp hi
    have h2 := tdim_row.mp hj
    exact h _ h1.2 _ h2.2

/-- Max norm from the max norms of tiles. -/
theorem max_tiles (hb : 0 < b) {P : List (Nat × Nat)} {w : Nat → Nat → ℝ}
    (hP : ∀ p ∈ P, p.1 < ceilDiv m b ∧ p.2 < ceilDiv n b)
    (hw : ∀ p ∈ P, ∀ x, |w p.1 p.2| ≤ x ↔
      0 ≤ x ∧ ∀ i < tdim m b p.1, ∀ j < tdim n b p.2, E (p.1 * b + i) (p.2 * b + j) ≤ x)
    (h0 : ∀ p < ceilDiv m b, ∀ q < ceilDiv n b, (p, q) ∉ P →
      ∀ i < tdim m b p, ∀ j < tdim n b q, E (p * b + i) (q * b + j) ≤ 0) (x : ℝ) :
    maxOf P (fun p q => |w p q|) ≤ x ↔ 0 ≤ x ∧ ∀ r < m, ∀ c < n, E r c ≤ x := by
  rw [maxOf_le, ← tiles_forall hb (P := fun r c => E r c ≤ x)]
  refine and_congr_right fun hx => ⟨fun h p hp q hq => ?_, fun h p hp => ?_⟩
  · by_cases hpq : (p, q) ∈ P
    · exact ((hw _ hpq x).mp (h _ hpq)).2
    · intro i hi j hj
      exact le_trans (h0 p hp q hq hpq i hi j hj) hx
  · obtain ⟨h1, h2⟩ := hP p hp
    exact (hw p hp x).mpr ⟨hx, h _ h1 _ h2⟩

/-- One norm from the column sums of tiles. -/
theorem one_tiles (hb : 0 < b) (hE : ∀ r c, 0 ≤ E r c) {w : Nat → Nat → ℝ}
    (hw : ∀ c < n, ∀ p < ceilDiv m b, w c p = ∑ i ∈ range (tdim m b p), E (p * b + i) c) (x : ℝ) :
    infNorm n (ceilDiv m b) w ≤ x ↔ 0 ≤ x ∧ ∀ c < n, ∑ r ∈ range m, E r c ≤ x := by
  rw [infNorm_le]
  refine and_congr_right fun _ => forall_congr' fun c => imp_congr_right fun hc => ?_
  rw [← sum_tiles hb (fun r => E r c)]
  have : ∑ k ∈ range (ceilDiv m b), |w c k| =
      ∑ t ∈ range (ceilDiv m b), ∑ l ∈ range (tdim m b t), E (t * b + l) c := by
    refine Finset.sum_congr rfl fun k hk => ?_
    rw [hw c hc k (mem_range.mp hk), abs_of_nonneg (Finset.sum_nonneg fun i _ => hE _ _)]
  rw [this]

theorem sum_tiles2 (hb : 0 < b) (f : Nat → Nat → ℝ) :
    ∑ q ∈ range (ceilDiv n b), ∑ p ∈ range (ceilDiv m b), ∑ j ∈ range (tdim n b q), ∑ i ∈ range (tdim m b p),
      f (p * b + i) (q * b + j) = ∑ r ∈ range m, ∑ c ∈ range n, f r c := by
  rw [Finset.sum_comm (s := range m), ← sum_tiles hb (fun c => ∑ r ∈ range m, f r c)]
  refine Finset.sum_congr rfl fun q _ => ?_
  rw [Finset.sum_comm]
  refine Finset.sum_congr rfl fun j _ => ?_
  exact sum_tiles hb (fun r => f r (q * b + j))

end

/-- The loop of `plasma_core_omp_dgessq_aux(n, scale, sumsq, value)` (core_blas/core_zgessq.c:61-72)
over arrays given by their elements. -/
noncomputable def gessqAux (n : Nat) (scale sumsq : Nat → ℝ) : ℝ :=
  ssqVal ((List.range n).foldl (fun p i => ssqJoin p (scale i, sumsq i)) (0, 1))

/-- The loops of `plasma_core_omp_dsyssq_aux(m, n, scale, sumsq, value)`
(core_blas/core_zsyssq.c:84-113). -/
noncomputable def syssqAux (m n : Nat) (scale sumsq : Nat → ℝ) : ℝ :=
  let p := (List.range n).foldl (fun p j => (span (j + 1) n).foldl
    (fun p i => ssqJoin p (scale (m * j + i), sumsq (m * j + i))) p) (0, 1)
  ssqVal ((List.range n).foldl (fun p j => ssqJoin p (scale (m * j + j), sumsq (m * j + j))) (p.1, 2 * p.2))

theorem sum_listRange (f : Nat → ℝ) (n : Nat) : ((List.range n).map f).sum = ∑ i ∈ range n, f i := by
  rw [← List.sum_toFinset f List.nodup_range]
  apply Finset.sum_congr _ (fun _ _ => rfl)
  ext x; simp

theorem gessqAux_eq {N : Nat} {scale sumsq : Nat → ℝ} {t : Nat → ℝ}
    (h : ∀ i < N, Ssq (scale i, sumsq i) (t i)) : gessqAux N scale sumsq = Real.sqrt (∑ i ∈ range N, t i) := by
  unfold gessqAux
  have := fold_ssq (F := fun p i => ssqJoin p (scale i, sumsq i)) (G := t) (List.range N)
    (fun p u x hx hp => hp.join (h x (List.mem_range.mp hx))) ssq_init
  rw [this.val, zero_add, sum_listRange]

theorem syssqAux_eq {m N : Nat} {scale sumsq : Nat → ℝ} {t : Nat → Nat → ℝ}
    (h : ∀ j < N, ∀ i < N, j ≤ i → Ssq (scale (m * j + i), sumsq (m * j + i)) (t i j)) :
    syssqAux m N scale sumsq =
      Real.sqrt (2 * ∑ j ∈ range N, ∑ i ∈ Ico (j + 1) N, t i j + ∑ j ∈ range N, t j j) := by
  unfold syssqAux
  have h1 := fold_ssq (F := fun p j => (span (j + 1) N).foldl
    (fun p i => ssqJoin p (scale (m * j + i), sumsq (m * j + i))) p)
    (G := fun j => ∑ i ∈ Ico (j + 1) N, t i j) (List.range N) (by
      intro p u j hj hp
      have := fold_ssq (F := fun p i => ssqJoin p (scale (m * j + i), sumsq (m * j + i))) (G := fun i => t i j)
        (span (j + 1) N) (fun p u i hi hp => hp.join (by
          rw [mem_span] at hi
          exact h j (List.mem_range.mp hj) i hi.2 (by omega))) hp
      rw [sum_span] at this
      exact this) ssq_init
  rw [zero_add, sum_listRange] at h1
  have h2 := h1.double
  rw [mul_comm _ (2 : ℝ)] at h2
  have h3 := fold_ssq (F := fun p j => ssqJoin p (scale (m * j + j), sumsq (m * j + j))) (G := fun j => t j j)
    (List.range N) (fun p u j hj hp => hp.join (h j (List.mem_range.mp hj) j (List.mem_range.mp hj) le_rfl)) h2
  rw [sum_listRange] at h3
  exact h3.val

/-- Sum over linear indices `i = r + c * M`. -/
theorem sum_linear {M N : Nat} (f : Nat → Nat → ℝ) :
    ∑ i ∈ range (M * N), f (i % M) (i / M) = ∑ c ∈ range N, ∑ r ∈ range M, f r c := by
  induction N with
  | zero => simp
  | succ N ih =>
    rw [Nat.mul_succ, Finset.sum_range_add, ih, Finset.sum_range_succ]
    congr 1
    refine Finset.sum_congr rfl fun r hr => ?_
    have hr := mem_range.mp hr
    rw [Nat.mul_add_mod, Nat.mod_eq_of_lt hr, Nat.mul_add_div (by omega), Nat.div_eq_of_lt hr, Nat.add_zero]

end Verif.Norm

/-
Model of `pzlauum`, the product of a triangular factor with its conjugate transpose, and
its correctness at tile level.
-/
import Verif.Potrf
import Verif.Trmm

namespace Verif.Tile

open Verif.Layout Finset

universe u v

variable {M : Type u} {𝕜 : Type v} [RCLike 𝕜] [DecidableEq 𝕜]

/-- The elements of the product `U U^H` (upper) or `L^H L` (lower) of order `n`. -/
noncomputable def lauE (u : Uplo) (n : Nat) (T : Nat → Nat → 𝕜) (i j : Nat) : 𝕜 :=
  if u = .lower then ∑ l ∈ range n, star (trE .lower .nonUnit T l i) * trE .lower .nonUnit T l j
  else ∑ l ∈ range n, trE .upper .nonUnit T i l * star (trE .upper .nonUnit T j l)

/-- `LAPACKE_zlauum_work` on an `n × n` tile (core_blas/core_zlauum.c:57-62), by its LAPACK
specification in exact arithmetic.  The reference implementation uses only the real part
of the diagonal, so the product is promised for a real diagonal only. -/
structure IsLauum (lk : Uplo → Nat → Tl 𝕜 → Tl 𝕜) : Prop where
  loc : ∀ u n T T', (∀ i j, tri u n i j → T i j = T' i j) → ∀ i j, tri u n i j → lk u n T i j = lk u n T' i j
  ok : ∀ u n T, (∀ i, i < n → star (T i i) = T i i) → ∀ i j, tri u n i j → lk u n T i j = lauE u n T i j

omit [DecidableEq 𝕜] in
theorem trE_congr_tri {u : Uplo} {T T' : Nat → Nat → 𝕜} {n : Nat} (h : ∀ i j, tri u n i j → T i j = T' i j)
    {i j : Nat} (hi : i < n) (hj : j < n) : trE u .nonUnit T i j = trE u .nonUnit T' i j :=
  trE_congr hi hj fun i j hij => h i j ⟨hij.1, hij.2.1, hij.2.2.1⟩

omit [DecidableEq 𝕜] in
/-- There is such a kernel. -/
theorem exists_isLauum : ∃ lk, IsLauum (𝕜 := 𝕜) lk := by
  refine ⟨fun u n T => lauE u n T, ?_, fun u n T _ i j _ => rfl⟩
  intro u n T T' h i j hij
  unfold lauE
  cases u
  · simp only [reduceCtorEq, if_false]
    refine sum_congr rfl fun l hl => ?_
    rw [mem_range] at hl
    rw [trE_congr_tri h hij.1 hl, trE_congr_tri h hij.2.1 hl]
  · simp only [if_true]
    refine sum_congr rfl fun l hl => ?_
    rw [mem_range] at hl
    rw [trE_congr_tri h hl hij.1, trE_congr_tri h hl hij.2.1]

/-- `plasma_core_omp_zlauum` (core_blas/core_zlauum.c:65-82).  The kernel reports an error
for illegal arguments only, which the caller does not pass. -/
noncomputable def coreLauum (lk : Uplo → Nat → Tl 𝕜 → Tl 𝕜) (u : Uplo) (n : Nat) (a : M) : TTask M 𝕜 :=
  op0 a (tri u n) (lk u n)

/-- `plasma_pzlauum` (compute/pzlauum.c:27-128). -/
noncomputable def pzlauum (lk : Uplo → Nat → Tl 𝕜 → Tl 𝕜) (u : Uplo) (A : TMat M) : List (TTask (M × Nat × Nat) 𝕜) :=
  if u = .lower then
    (List.range A.d.mt).flatMap fun k =>
      ((List.range k).flatMap fun n =>
        coreRk true reP .lower .conjTrans (min (A.d.mview n) (A.d.nview n)) (min (A.d.mview k) (A.d.nview n)) 1
          (A.at' k n) 1 (A.at' n n) ::
        (span (n+1) k).map fun m =>
          coreGemm .conjTrans .noTrans (A.d.mview m) (A.d.nview n) (A.d.mview k) 1 (A.at' k m) (A.at' k n) 1
            (A.at' m n)) ++
      (((List.range k).map fun n =>
        coreTrmm .left .lower .conjTrans .nonUnit (A.d.mview k) (A.d.nview n) 1 (A.at' k k) (A.at' k n)) ++
      [coreLauum lk .lower (min (A.d.mview k) (A.d.nview k)) (A.at' k k)])
  else
    (List.range A.d.mt).flatMap fun k =>
      ((List.range k).flatMap fun m =>
        coreRk true reP .upper .noTrans (min (A.d.mview m) (A.d.nview m)) (min (A.d.mview m) (A.d.nview k)) 1
          (A.at' m k) 1 (A.at' m m) ::
        (span (m+1) k).map fun n =>
          coreGemm .noTrans .conjTrans (A.d.mview m) (A.d.nview n) (A.d.nview k) 1 (A.at' m k) (A.at' n k) 1
            (A.at' m n)) ++
      (((List.range k).map fun m =>
        coreTrmm .right .upper .conjTrans .nonUnit (A.d.mview m) (A.d.nview k) 1 (A.at' k k) (A.at' m k)) ++
      [coreLauum lk .upper (min (A.d.mview k) (A.d.nview k)) (A.at' k k)])

/-! ### Kernels on the lower view of their tiles -/

variable {u : Uplo}

omit [DecidableEq 𝕜] in
theorem trE_up (T : Nat → Nat → 𝕜) (x y : Nat) : trE .upper .nonUnit T x y = if x ≤ y then T x y else 0 := by
  unfold trE
  by_cases h : x = y
  · subst h; simp
  · rw [if_neg h]; simp only [inTri]

omit [DecidableEq 𝕜] in
theorem trE_lo (T : Nat → Nat → 𝕜) (x y : Nat) : trE .lower .nonUnit T x y = if y ≤ x then T x y else 0 := by
  unfold trE
  by_cases h : x = y
  · subst h; simp
  · rw [if_neg h]; simp only [inTri]

omit [DecidableEq 𝕜] in
theorem lu_herk {m n : Nat} {a c : M} (s : Store M 𝕜) {i j : Nat} (hi : i < m) (hj : j ≤ i) :
    lowE u ((coreRk true reP u (ptr2 u) m n 1 a 1 c).run s c) i j =
      hd (lowE u (s c)) i j + ∑ l ∈ range n, star (lowE u (s a) l i) * lowE u (s a) l j := by
  cases u
  · simp only [lowE, ptr2, reduceCtorEq, if_false, coreRk]
    rw [op1_self, paste_in ⟨by omega, hi, hj⟩]
    simp only [dre, opE, cj, hd, lowE, reduceCtorEq, if_false, true_and, if_true, one_mul, star_add, star_mul', star_star,
      star_sum]
    have : (if i = j then reP (star (s c j i)) else star (s c j i)) =
        star (if j = i then reP (s c j i) else s c j i) := by
      split
      · rename_i h; rw [if_pos h.symm, reP_star, reP_isRe.sa]
      · rename_i h; rw [if_neg (Ne.symm h)]
    rw [this]
    congr 1
    exact sum_congr rfl fun l _ => mul_comm _ _
  · simp only [lowE, ptr2, if_true, coreRk]
    rw [op1_self, paste_in ⟨hi, by omega, hj⟩]
    simp only [dre, opE, cj, hd, lowE, true_and, if_true, one_mul, star_star]

omit [DecidableEq 𝕜] in
theorem lu_gemm {m n k : Nat} {a b c : M} (s : Store M 𝕜) {i j : Nat} (hi : i < m) (hj : j < n) :
    lowE u ((coreGemm (ptr2 u) (ptr1 u) (pr u m n) (pr u n m) k 1 (if u = .lower then a else b)
        (if u = .lower then b else a) 1 c).run s c) i j =
      lowE u (s c) i j + ∑ l ∈ range k, star (lowE u (s a) l i) * lowE u (s b) l j := by
  cases u
  · simp only [lowE, ptr1, ptr2, pr, reduceCtorEq, if_false]
    rw [gemm_run s ⟨hj, hi⟩]
    simp only [opE, one_mul, star_add, star_mul', star_star, star_sum]
    congr 1
    exact sum_congr rfl fun l _ => mul_comm _ _
  · simp only [lowE, ptr1, ptr2, pr, if_true]
    rw [gemm_run s ⟨hi, hj⟩]
    simp only [opE, one_mul]

omit [DecidableEq 𝕜] in
theorem lu_trmm {m n : Nat} {a c : M} (s : Store M 𝕜) {i j : Nat} (hi : i < m) (hj : j < n) :
    lowE u ((coreTrmm (if u = .lower then .left else .right) u .conjTrans .nonUnit (pr u m n) (pr u n m) 1 a c).run s c) i j =
      ∑ l ∈ range m, (if i ≤ l then star (lowE u (s a) l i) * lowE u (s c) l j else 0) := by
  cases u
  · simp only [lowE, pr, reduceCtorEq, if_false, coreTrmm]
    rw [op1_self, paste_in ⟨hj, hi⟩]
    simp only [trmmK, reduceCtorEq, if_false, one_mul, star_sum, star_mul', opE, star_star, trE_up]
    refine sum_congr rfl fun l _ => ?_
    by_cases h : i ≤ l
    · rw [if_pos h, if_pos h, mul_comm]
    · rw [if_neg h, if_neg h, mul_zero]
  · simp only [lowE, pr, if_true, coreTrmm]
    rw [op1_self, paste_in ⟨hi, hj⟩]
    simp only [trmmK, if_true, one_mul, opE, trE_lo]
    refine sum_congr rfl fun l _ => ?_
    by_cases h : i ≤ l
    · rw [if_pos h, if_pos h]
    · rw [if_neg h, if_neg h, star_zero, zero_mul]

omit [DecidableEq 𝕜] in
/-- The product in the lower view. -/
theorem lauE_low (u : Uplo) (n : Nat) (T : Nat → Nat → 𝕜) {r c : Nat} (hc : c ≤ r) :
    lowE u (lauE u n T) r c =
      ∑ l ∈ range n, (if r ≤ l then star (lowE u T l r) * lowE u T l c else 0) := by
  cases u
  · simp only [lowE, lauE, reduceCtorEq, if_false, star_sum, star_mul', star_star, trE_up, trE_lo]
    refine sum_congr rfl fun l _ => ?_
    by_cases h : r ≤ l
    · rw [if_pos h, if_pos h, if_pos (by omega), mul_comm]
    · rw [if_neg h, if_neg h, mul_zero]
  · simp only [lowE, lauE, if_true, trE_up, trE_lo]
    refine sum_congr rfl fun l _ => ?_
    by_cases h : r ≤ l
    · rw [if_pos h, if_pos h, if_pos (by omega)]
    · rw [if_neg h, if_neg h, star_zero, zero_mul]

/-! ### One step -/

variable {lk : Uplo → Nat → Tl 𝕜 → Tl 𝕜} {A : TMat M} {b N : Nat}

/-- Tiles updated in step `k`, in order of creation. -/
def luIdx (k : Nat) : List (Nat × Nat) :=
  ((List.range k).flatMap fun n => (n, n) :: (span (n+1) k).map fun m => (m, n)) ++
    (((List.range k).map fun n => (k, n)) ++ [(k, k)])

/-- The task of step `k` that updates tile `p`. -/
noncomputable def luTask (lk : Uplo → Nat → Tl 𝕜 → Tl 𝕜) (u : Uplo) (A : TMat M) (b N k : Nat) (p : Nat × Nat) :
    TTask (M × Nat × Nat) 𝕜 :=
  if p = (k, k) then coreLauum lk u (tdim N b k) (pt u A p)
  else if p.1 = k then
    coreTrmm (if u = .lower then .left else .right) u .conjTrans .nonUnit (pr u (tdim N b k) (tdim N b p.2))
      (pr u (tdim N b p.2) (tdim N b k)) 1 (pt u A (k, k)) (pt u A p)
  else if p.1 = p.2 then
    coreRk true reP u (ptr2 u) (tdim N b p.1) (tdim N b k) 1 (pt u A (k, p.2)) 1 (pt u A p)
  else
    coreGemm (ptr2 u) (ptr1 u) (pr u (tdim N b p.1) (tdim N b p.2)) (pr u (tdim N b p.2) (tdim N b p.1)) (tdim N b k) 1
      (if u = .lower then pt u A (k, p.1) else pt u A (k, p.2))
      (if u = .lower then pt u A (k, p.2) else pt u A (k, p.1)) 1 (pt u A p)

theorem mem_luIdx {k : Nat} {p : Nat × Nat} : p ∈ luIdx k ↔ p.2 ≤ p.1 ∧ p.1 ≤ k := by
  obtain ⟨m, n⟩ := p
  simp only [luIdx, List.mem_append, List.mem_map, List.mem_flatMap, mem_span, List.mem_cons, List.mem_range,
    Prod.mk.injEq, List.not_mem_nil, or_false]
  constructor
  · rintro (⟨x, hx, ⟨rfl, rfl⟩ | ⟨y, hy, rfl, rfl⟩⟩ | ⟨x, hx, rfl, rfl⟩ | ⟨rfl, rfl⟩) <;> omega
  · rintro ⟨h1, h2⟩
    by_cases hm : m = k
    · by_cases hn : n = k
      · exact Or.inr (Or.inr ⟨hm, hn⟩)
      · exact Or.inr (Or.inl ⟨n, by omega, hm.symm, rfl⟩)
    · refine Or.inl ⟨n, by omega, ?_⟩
      by_cases hmn : m = n
      · exact Or.inl ⟨hmn, rfl⟩
      · exact Or.inr ⟨m, by omega, rfl, rfl⟩

omit [DecidableEq 𝕜] in
theorem pzlauum_eq (hA : A.Al b) (hm : A.d.m = N) (hn : A.d.n = N) :
    pzlauum lk u A = (List.range (ceilDiv N b)).flatMap fun k => (luIdx k).map (luTask lk u A b N k) := by
  have hmt : A.d.mt = ceilDiv N b := by rw [hA.mt_eq, hm]
  have hmv : ∀ k, k < ceilDiv N b → A.d.mview k = tdim N b k := fun k hk => by
    rw [hA.mview (by omega), hm]
  have hnt : A.d.nt = ceilDiv N b := by rw [hA.nt_eq, hn]
  have hnv : ∀ k, k < ceilDiv N b → A.d.nview k = tdim N b k := fun k hk => by
    rw [hA.nview (by omega), hn]
  have hmin : ∀ k m, m < k → k < ceilDiv N b → min (tdim N b k) (tdim N b m) = tdim N b k := by
    intro k m hmk hk
    rw [tdim_full (t := m) hA.pos rfl (by omega)]
    exact Nat.min_eq_left tdim_le
  unfold pzlauum
  cases u
  · simp only [reduceCtorEq, if_false, hmt]
    apply List.flatMap_congr
    intro k hk
    rw [List.mem_range] at hk
    unfold luIdx
    rw [List.map_append, List.map_append, List.map_map, List.map_flatMap]
    congr 1
    · apply List.flatMap_congr
      intro n hn
      rw [List.mem_range] at hn
      rw [List.map_cons, List.map_map]
      have hnk : n ≠ k := by omega
      congr 1
      · simp only [luTask, Prod.mk.injEq, hnk, false_and, if_false, if_true, ptr2, pt, reduceCtorEq]
        rw [hmv n (by omega), hnv n (by omega), hnv k hk, Nat.min_self, Nat.min_comm, hmin k n hn hk]
      · apply List.map_congr_left
        intro m hm
        rw [mem_span] at hm
        have h1 : m ≠ k := by omega
        have h2 : m ≠ n := by omega
        simp only [Function.comp, luTask, Prod.mk.injEq, h1, h2, false_and, if_false, ptr2, ptr1, pr, pt, reduceCtorEq]
        rw [hmv n (by omega), hnv m (by omega), hnv k hk]
    · congr 1
      · apply List.map_congr_left
        intro n hn
        rw [List.mem_range] at hn
        have hnk : n ≠ k := by omega
        simp only [Function.comp, luTask, Prod.mk.injEq, hnk, and_false, if_false, if_true, pr, pt, reduceCtorEq]
        rw [hmv n (by omega), hnv k hk]
      · simp only [luTask, List.map_cons, List.map_nil, if_true, pt, reduceCtorEq, if_false]
        rw [hmv k hk, hnv k hk, Nat.min_self]
  · simp only [if_true, hmt]
    apply List.flatMap_congr
    intro k hk
    rw [List.mem_range] at hk
    unfold luIdx
    rw [List.map_append, List.map_append, List.map_map, List.map_flatMap]
    congr 1
    · apply List.flatMap_congr
      intro n hn
      rw [List.mem_range] at hn
      rw [List.map_cons, List.map_map]
      have hnk : n ≠ k := by omega
      congr 1
      · simp only [luTask, Prod.mk.injEq, hnk, false_and, if_false, if_true, ptr2, pt]
        rw [hmv n (by omega), hnv n (by omega), hmv k hk, Nat.min_self, hmin k n hn hk]
      · apply List.map_congr_left
        intro m hm
        rw [mem_span] at hm
        have h1 : m ≠ k := by omega
        have h2 : m ≠ n := by omega
        simp only [Function.comp, luTask, Prod.mk.injEq, h1, h2, false_and, if_false, ptr2, ptr1, pr, pt, if_true]
        rw [hnv n (by omega), hmv m (by omega), hmv k hk]
    · congr 1
      · apply List.map_congr_left
        intro n hn
        rw [List.mem_range] at hn
        have hnk : n ≠ k := by omega
        simp only [Function.comp, luTask, Prod.mk.injEq, hnk, and_false, if_false, if_true, pr, pt]
        rw [hnv n (by omega), hmv k hk]
      · simp only [luTask, List.map_cons, List.map_nil, if_true, pt]
        rw [hmv k hk, hnv k hk, Nat.min_self]

/-- `p` is updated before `q` in step `k`. -/
def LuBefore (k : Nat) (p q : Nat × Nat) : Prop := p ≠ q ∧ p ≠ (k, k) ∧ (q.1 ≠ k → p.1 ≠ k)

theorem luIdx_pairwise (k : Nat) : (luIdx k).Pairwise (LuBefore k) := by
  unfold luIdx
  rw [List.pairwise_append, List.pairwise_append]
  refine ⟨?_, ⟨?_, List.pairwise_singleton _ _, ?_⟩, ?_⟩
  · have key : ∀ n, n < k → ∀ x ∈ (n, n) :: (span (n+1) k).map fun m => (m, n), x.2 = n ∧ n ≤ x.1 ∧ x.1 < k := by
      intro n hn x hx
      rw [List.mem_cons, List.mem_map] at hx
      rcases hx with rfl | ⟨m, hm, rfl⟩
      · simp [hn]
      · rw [mem_span] at hm; simp; omega
    rw [List.pairwise_flatMap]
    constructor
    · intro n hn
      rw [List.mem_range] at hn
      have hnd : ((n, n) :: (span (n+1) k).map fun m => (m, n)).Nodup := by
        rw [List.nodup_cons]
        constructor
        · rw [List.mem_map]; rintro ⟨m, hm, he⟩; rw [mem_span] at hm; simp at he; omega
        · exact (nodup_span (lo := n+1) (hi := k)).map fun a b h => by simpa using h
      refine List.Pairwise.imp_of_mem ?_ hnd
      intro x y hx hy hxy
      have h1 := key n hn x hx
      refine ⟨hxy, ?_, fun _ => by omega⟩
      rintro rfl; simp at h1
    · refine List.Pairwise.imp_of_mem ?_ (List.nodup_range (n := k))
      intro a b ha hb hab x hx y hy
      rw [List.mem_range] at ha hb
      have h1 := key a ha x hx
      have h2 := key b hb y hy
      refine ⟨?_, ?_, fun _ => by omega⟩
      · rintro rfl; omega
      · rintro rfl; simp at h1
  · rw [List.pairwise_map]
    refine List.Pairwise.imp_of_mem ?_ (List.nodup_range (n := k))
    intro a b ha hb hab
    rw [List.mem_range] at ha hb
    refine ⟨by simpa using hab, by simp; omega, fun h => absurd rfl h⟩
  · intro x hx y hy
    obtain ⟨n, hn, rfl⟩ := List.mem_map.mp hx
    rw [List.mem_range] at hn
    rw [List.mem_singleton] at hy
    subst hy
    exact ⟨by simp; omega, by simp; omega, fun h => absurd rfl h⟩
  · intro x hx y hy
    obtain ⟨n, hn, hx⟩ := List.mem_flatMap.mp hx
    rw [List.mem_range] at hn
    have h1 : x.1 < k := by
      rw [List.mem_cons, List.mem_map] at hx
      rcases hx with rfl | ⟨m, hm, rfl⟩
      · exact hn
      · rw [mem_span] at hm; exact hm.2
    have h2 : y.1 = k := by
      rw [List.mem_append, List.mem_map, List.mem_singleton] at hy
      rcases hy with ⟨_, _, rfl⟩ | rfl <;> rfl
    refine ⟨?_, ?_, fun h => absurd h2 h⟩
    · rintro rfl; omega
    · rintro rfl; simp at h1

/-- Tiles used by the task that updates `p`. -/
def luD (u : Uplo) (A : TMat M) (k : Nat) (p : Nat × Nat) (x : M × Nat × Nat) : Prop :=
  x = pt u A p ∨ (p.1 = k ∧ x = pt u A (k, k)) ∨
    (p.1 ≠ k ∧ (x = pt u A (k, p.1) ∨ x = pt u A (k, p.2)))

omit [DecidableEq 𝕜] in
theorem luTask_writes (k : Nat) (p : Nat × Nat) :
    Writes (fun x => x = pt u A p) [luTask lk u A b N k p] := by
  unfold luTask
  exact single_ite (writes_op0 rfl) (single_ite (writes_op1 rfl) (single_ite (writes_op1 rfl) (writes_op2 rfl)))

omit [DecidableEq 𝕜] in
theorem luTask_within (hlk : IsLauum lk) (k : Nat) (p : Nat × Nat) :
    Within (luD u A k p) [luTask lk u A b N k p] := by
  unfold luTask
  refine single_ite (Within.op0 (op0_local fun C C' h => hlk.loc u _ C C' h) (Or.inl rfl)) ?_
  by_cases h1 : p.1 = k
  · rw [if_pos h1]
    exact Within.op1 coreTrmm_local (Or.inr (Or.inl ⟨h1, rfl⟩)) (Or.inl rfl)
  · rw [if_neg h1]
    refine single_ite ?_ ?_
    · exact Within.op1 coreRk_local (Or.inr (Or.inr ⟨h1, Or.inr rfl⟩)) (Or.inl rfl)
    · refine gemm_within ?_ ?_ (Or.inl rfl)
      · split
        · exact Or.inr (Or.inr ⟨h1, Or.inl rfl⟩)
        · exact Or.inr (Or.inr ⟨h1, Or.inr rfl⟩)
      · split
        · exact Or.inr (Or.inr ⟨h1, Or.inr rfl⟩)
        · exact Or.inr (Or.inr ⟨h1, Or.inl rfl⟩)

omit [DecidableEq 𝕜] in
/-- Every tile is updated from the contents of the tiles at the start of the step. -/
theorem luStep_tile (hlk : IsLauum lk) (k : Nat) (s : Store (M × Nat × Nat) 𝕜) {p : Nat × Nat}
    (hp : p ∈ luIdx k) :
    texec ((luIdx k).map (luTask lk u A b N k)) s (pt u A p) = (luTask lk u A b N k p).run s (pt u A p) := by
  rw [map_flatMap_sing]
  refine par_init (R := LuBefore k) (D := luD u A k) (luIdx_pairwise k) (fun p => Or.inl rfl) ?_
    (fun p _ => luTask_within hlk k p) (fun p _ => luTask_writes k p) s hp
  rintro p q ⟨hpq, hk, hqk⟩ (h | ⟨_, h⟩ | ⟨h1, h | h⟩) <;> rw [pt_inj] at h
  · exact hpq h
  · exact hk h
  · exact hqk h1 (by rw [h])
  · exact hqk h1 (by rw [h])

omit [DecidableEq 𝕜] in
theorem luStep_frame (k : Nat) (s : Store (M × Nat × Nat) 𝕜) {x : M × Nat × Nat}
    (hx : ∀ p ∈ luIdx k, x ≠ pt u A p) :
    texec ((luIdx k).map (luTask lk u A b N k)) s x = s x := by
  rw [map_flatMap_sing]
  exact par_frame (fun p _ => luTask_writes k p) s hx

/-- State after `q` rows: the leading block holds the product of the rows so far. -/
def LauInv (N q : Nat) (L X : Nat → Nat → 𝕜) : Prop :=
  ∀ r c, c ≤ r → r < N → X r c =
    if r < q then ∑ l ∈ range q, (if r ≤ l then star (L l r) * L l c else 0) else L r c

omit [DecidableEq 𝕜] in
theorem luStep_inv (hlk : IsLauum lk) (hA : A.Al b) {k : Nat} (hk : k < ceilDiv N b)
    (s : Store (M × Nat × Nat) 𝕜) {L : Nat → Nat → 𝕜} (hL : ∀ r, r < N → star (L r r) = L r r)
    (h : LauInv N (k * b) L (lowE u (A.el s))) :
    LauInv N (min ((k + 1) * b) N) L
      (lowE u (A.el (texec ((luIdx k).map (luTask lk u A b N k)) s))) := by
  have hb := hA.pos
  set F := texec ((luIdx k).map (luTask lk u A b N k)) s with hF
  set w := tdim N b k with hw
  have hkN : k * b < N := by rw [lt_ceilDiv hb] at hk; exact hk
  have hwN : ∀ i, i < w → i < b ∧ k * b + i < N := fun i hi => by rw [hw, tdim_row] at hi; exact hi
  have hww : ∀ i, i < b → k * b + i < N → i < w := fun i h1 h2 => by rw [hw, tdim_row]; exact ⟨h1, h2⟩
  have hwle : w ≤ b := tdim_le
  have hq2 : min ((k + 1) * b) N = k * b + w := by
    rw [Nat.add_mul, Nat.one_mul]
    rcases Nat.lt_or_ge N (k * b + b) with hc | hc
    · have h1 : N - k * b ≤ w := by
        by_contra h2
        have := hww w (by omega) (by omega)
        omega
      have h2 : w ≤ N - k * b := by
        by_contra h2
        have := hwN (N - k * b) (by omega)
        omega
      omega
    · have : w = b := by
        by_contra hne
        have := hww w (by omega) (by omega)
        omega
      omega
  rw [hq2]
  have htile : ∀ p, p ∈ luIdx k → F (pt u A p) = (luTask lk u A b N k p).run s (pt u A p) :=
    fun p hp => luStep_tile hlk k s hp
  -- rows of tiles from `k` on still hold the original
  have hrow : ∀ i n j, i < w → j < b → n * b + j ≤ k * b + i →
      lowE u (s (pt u A (k, n))) i j = L (k * b + i) (n * b + j) := by
    intro i n j hi hj hle
    have := h (k * b + i) (n * b + j) hle (hwN i hi).2
    rw [if_neg (by omega), lowE_el hA s (hwN i hi).1 hj] at this
    exact this
  intro r c hcr hr
  obtain ⟨m, i, hi, rfl⟩ : ∃ m i, i < b ∧ r = m * b + i :=
    ⟨r / b, r % b, Nat.mod_lt _ hb, (divmod r b).symm⟩
  obtain ⟨n, j, hj, rfl⟩ : ∃ m i, i < b ∧ c = m * b + i :=
    ⟨c / b, c % b, Nat.mod_lt _ hb, (divmod c b).symm⟩
  have hnm : n ≤ m := by
    by_contra hcc
    have : (m + 1) * b ≤ n * b := Nat.mul_le_mul_right _ (by omega)
    rw [Nat.add_mul] at this; omega
  rcases Nat.lt_trichotomy m k with hmk | hmk | hmk
  · -- accumulate
    have hlt : m * b + i < k * b := by
      have : (m + 1) * b ≤ k * b := Nat.mul_le_mul_right _ hmk
      rw [Nat.add_mul] at this; omega
    rw [if_pos (by omega), sum_range_add]
    have hold := h (m * b + i) (n * b + j) hcr hr
    rw [if_pos hlt] at hold
    have hnew : ∑ x ∈ range w, (if m * b + i ≤ k * b + x then star (L (k * b + x) (m * b + i)) * L (k * b + x) (n * b + j) else 0) =
        ∑ l ∈ range w, star (lowE u (s (pt u A (k, m))) l i) * lowE u (s (pt u A (k, n))) l j := by
      refine sum_congr rfl fun l hl => ?_
      rw [mem_range] at hl
      rw [if_pos (by omega), hrow l m i hl hi (by omega), hrow l n j hl hj (by omega)]
    rw [hnew, ← hold, lowE_el hA F hi hj, lowE_el hA s hi hj, htile (m, n) (by rw [mem_luIdx]; exact ⟨hnm, le_of_lt hmk⟩)]
    have hne : m ≠ k := by omega
    rcases Nat.eq_or_lt_of_le hnm with rfl | hnm'
    · simp only [luTask, Prod.mk.injEq, hne, false_and, if_false, if_true]
      rw [lu_herk s (by rw [tdim_row]; exact ⟨hi, hr⟩) (by omega)]
      congr 1
      by_cases hij : i = j
      · subst hij
        have hsa : star (lowE u (s (pt u A (n, n))) i i) = lowE u (s (pt u A (n, n))) i i := by
          rw [← lowE_el hA s hi hi, hold, star_sum]
          refine sum_congr rfl fun l _ => ?_
          split
          · rw [star_mul', star_star, mul_comm]
          · rw [star_zero]
        exact hd_of_sa (fun _ => hsa)
      · exact hd_off _ (by omega)
    · have hne2 : m ≠ n := by omega
      simp only [luTask, Prod.mk.injEq, hne, hne2, false_and, if_false]
      rw [lu_gemm s (by rw [tdim_row]; exact ⟨hi, hr⟩) (by
        rw [tdim_full (t := n) hb rfl (by omega)]; exact hj)]
  · -- the row of tiles `k`
    subst hmk
    have hiw : i < w := hww i hi hr
    rw [if_pos (by omega), sum_range_add, sum_eq_zero (s := range (m * b)), zero_add]
    · rw [lowE_el hA F hi hj, htile (m, n) (by rw [mem_luIdx]; exact ⟨hnm, le_refl _⟩)]
      rcases Nat.eq_or_lt_of_le hnm with rfl | hnm'
      · have hjw : j < w := by omega
        simp only [luTask, if_true]
        have hreal : ∀ i, i < w → star (s (pt u A (n, n)) i i) = s (pt u A (n, n)) i i := by
          intro i hi
          have h1 := hrow i n i hi (hwN i hi).1 (le_refl _)
          have h2 := hL _ (hwN i hi).2
          rw [← h1] at h2
          unfold lowE at h2
          cases u
          · simp only [reduceCtorEq, if_false, star_star] at h2; exact h2.symm
          · simpa using h2
        have hco : lowE u ((coreLauum lk u (tdim N b n) (pt u A (n, n))).run s (pt u A (n, n))) i j =
            lowE u (lauE u w (s (pt u A (n, n)))) i j := by
          unfold lowE coreLauum
          cases u
          · simp only [reduceCtorEq, if_false]
            have ht : tri .upper (tdim N b n) j i := ⟨hjw, hiw, by simp only [inTri]; omega⟩
            rw [op0_self, paste_in ht, hlk.ok _ _ _ hreal _ _ ht]
          · simp only [if_true]
            have ht : tri .lower (tdim N b n) i j := ⟨hiw, hjw, by simp only [inTri]; omega⟩
            rw [op0_self, paste_in ht, hlk.ok _ _ _ hreal _ _ ht]
        rw [hco, lauE_low u w _ (by omega)]
        refine sum_congr rfl fun l hl => ?_
        rw [mem_range] at hl
        by_cases hil : i ≤ l
        · rw [if_pos hil, if_pos (by omega), hrow l n i hl hi (by omega), hrow l n j hl hj (by omega)]
        · rw [if_neg hil, if_neg (by omega)]
      · have hne : n ≠ m := by omega
        simp only [luTask, Prod.mk.injEq, hne, and_false, if_false, if_true]
        rw [lu_trmm s hiw (by rw [tdim_full (t := n) hb rfl (by omega)]; exact hj)]
        refine sum_congr rfl fun l hl => ?_
        rw [mem_range] at hl
        have hlt : n * b + j < m * b := by
          have : (n + 1) * b ≤ m * b := Nat.mul_le_mul_right _ hnm'
          rw [Nat.add_mul] at this; omega
        by_cases hil : i ≤ l
        · rw [if_pos hil, if_pos (by omega), hrow l m i hl hi (by omega), hrow l n j hl hj (by omega)]
        · rw [if_neg hil, if_neg (by omega)]
    · intro l hl
      rw [mem_range] at hl
      rw [if_neg (by omega)]
  · -- not reached yet
    have hge : k * b + b ≤ m * b := by
      have : (k + 1) * b ≤ m * b := Nat.mul_le_mul_right _ hmk
      rw [Nat.add_mul] at this; omega
    rw [if_neg (by omega), lowE_el hA F hi hj]
    have hf : F (pt u A (m, n)) = s (pt u A (m, n)) := by
      apply luStep_frame
      intro p hp he
      rw [pt_inj] at he
      subst he
      rw [mem_luIdx] at hp
      simp only at hp; omega
    rw [hf]
    have := h (m * b + i) (n * b + j) hcr hr
    rw [if_neg (by omega), lowE_el hA s hi hj] at this
    exact this

omit [DecidableEq 𝕜] in
/-- Effect of `pzlauum` on the selected triangle. -/
theorem pzlauum_el (hlk : IsLauum lk) (hA : A.Al b) (hm : A.d.m = N) (hn : A.d.n = N)
    (s : Store (M × Nat × Nat) 𝕜) (hreal : ∀ r, r < N → star (A.el s r r) = A.el s r r) {r c : Nat}
    (hr : r < N) (hc : c < N) (hrc : inTri u r c) :
    A.el (texec (pzlauum lk u A) s) r c = lauE u N (A.el s) r c := by
  have hb := hA.pos
  have hL : ∀ r, r < N → star (lowE u (A.el s) r r) = lowE u (A.el s) r r := by
    intro r hr
    unfold lowE
    split <;> simp [hreal r hr]
  have inv : ∀ K, K ≤ ceilDiv N b → LauInv N (min (K * b) N) (lowE u (A.el s))
      (lowE u (A.el (texec ((List.range K).flatMap fun k => (luIdx k).map (luTask lk u A b N k)) s))) := by
    intro K
    induction K with
    | zero =>
      intro _ r c _ _
      rw [Nat.zero_mul, Nat.zero_min, if_neg (Nat.not_lt_zero _)]
      rfl
    | succ K ih =>
      intro hK
      rw [List.range_succ, List.flatMap_append, List.flatMap_singleton, texec_append]
      refine luStep_inv hlk hA (by omega) _ hL ?_
      have h1 : K * b < N := by rw [← lt_ceilDiv hb]; omega
      have := ih (by omega)
      rwa [Nat.min_eq_left (le_of_lt h1)] at this
  have h := inv _ (le_refl _)
  have hmin : min (ceilDiv N b * b) N = N := by
    have := (lt_ceilDiv (m := N) (k := ceilDiv N b) hb).not.mp (Nat.lt_irrefl _)
    omega
  rw [hmin, ← pzlauum_eq hA hm hn] at h
  have key : ∀ r c, c ≤ r → r < N → lowE u (A.el (texec (pzlauum lk u A) s)) r c = lowE u (lauE u N (A.el s)) r c := by
    intro r c h1 h2
    rw [h r c h1 h2, if_pos h2, lauE_low u N _ h1]
  cases u
  · have := key c r hrc hc
    simp only [lowE, reduceCtorEq, if_false] at this
    exact star_injective this
  · have := key r c hrc hr
    simpa only [lowE, if_true] using this

omit [DecidableEq 𝕜] in
/-- Only elements of the selected triangle are written. -/
theorem pzlauum_frame (hA : A.Al b) (hm : A.d.m = N) (hn : A.d.n = N) (s : Store (M × Nat × Nat) 𝕜)
    {r c : Nat} (h : ¬ inTri u r c) :
    A.el (texec (pzlauum lk u A) s) r c = A.el s r c := by
  have hb := hA.pos
  have key : ∀ x y i j, x < y → i < b → j < b → x * b + i ≤ y * b + j := by
    intro x y i j h hi hj
    have : (x + 1) * b ≤ y * b := Nat.mul_le_mul_right _ h
    rw [Nat.add_mul] at this; omega
  rw [pzlauum_eq hA hm hn]
  simp only [TMat.el, hA.mb, hA.nb]
  refine WritesE.frame (W := fun t i j => ∃ p : Nat × Nat, t = pt u A p ∧ i < b ∧ j < b ∧
    inTri u ((if u = .lower then p.1 else p.2) * b + i) ((if u = .lower then p.2 else p.1) * b + j))
    ?_ s ?_
  · refine WritesE.flatMap fun k hk => WritesE.map fun p hp => WritesE.single ?_
    rw [mem_luIdx] at hp
    have off : p.2 < p.1 → ∀ i j, i < pr u (tdim N b p.1) (tdim N b p.2) → j < pr u (tdim N b p.2) (tdim N b p.1) → i < b ∧ j < b ∧
        inTri u ((if u = .lower then p.1 else p.2) * b + i) ((if u = .lower then p.2 else p.1) * b + j) := by
      intro hlt i j hi hj
      have h1 : i < b := lt_of_lt_of_le hi (by unfold pr; split <;> exact tdim_le)
      have h2 : j < b := lt_of_lt_of_le hj (by unfold pr; split <;> exact tdim_le)
      refine ⟨h1, h2, ?_⟩
      cases u
      · simp only [reduceCtorEq, if_false, inTri]; exact key _ _ _ _ hlt h1 h2
      · simp only [if_true, inTri]; exact key _ _ _ _ hlt h2 h1
    have diag : ∀ i j n, p.1 = p.2 → tri u (tdim N b n) i j → i < b ∧ j < b ∧
        inTri u ((if u = .lower then p.1 else p.2) * b + i) ((if u = .lower then p.2 else p.1) * b + j) := by
      intro i j n he hij
      refine ⟨lt_of_lt_of_le hij.1 tdim_le, lt_of_lt_of_le hij.2.1 tdim_le, ?_⟩
      rw [he]; simp only [ite_self]
      exact inTri_diag hij.2.2
    unfold luTask
    by_cases h1 : p = (k, k)
    · rw [if_pos h1]
      rintro x i j ⟨rfl, hij⟩
      exact ⟨p, rfl, diag i j k (by rw [h1]) hij⟩
    · rw [if_neg h1]
      by_cases h2 : p.1 = k
      · rw [if_pos h2, ← h2]
        rintro x i j ⟨rfl, hij⟩
        refine ⟨p, rfl, off ?_ i j hij.1 hij.2⟩
        have : p.1 ≠ p.2 := by
          intro he; apply h1; rw [Prod.ext_iff]; exact ⟨h2, by rw [← he]; exact h2⟩
        omega
      · rw [if_neg h2]
        by_cases h3 : p.1 = p.2
        · rw [if_pos h3]
          rintro x i j ⟨rfl, hij⟩
          exact ⟨p, rfl, diag i j _ h3 hij⟩
        · rw [if_neg h3]
          rintro x i j ⟨rfl, hij⟩
          exact ⟨p, rfl, off (by omega) i j hij.1 hij.2⟩
  · rintro ⟨p, h1, _, _, h4⟩
    apply h
    unfold pt at h1
    cases u
    · simp only [reduceCtorEq, if_false] at h1 h4
      rw [TMat.at'_inj] at h1
      rwa [← h1.1, ← h1.2, divmod, divmod] at h4
    · simp only [if_true] at h1 h4
      rw [TMat.at'_inj] at h1
      rwa [← h1.1, ← h1.2, divmod, divmod] at h4

omit [DecidableEq 𝕜] in
theorem pzlauum_writes (hA : A.Al b) (hm : A.d.m = N) (hn : A.d.n = N) :
    Writes (fun t => t.1 = A.id) (pzlauum lk u A) := by
  have hid : ∀ p, (pt u A p).1 = A.id := by intro p; unfold pt; split <;> rfl
  rw [pzlauum_eq hA hm hn]
  refine Writes.flatMap fun k _ => ?_
  rw [map_flatMap_sing]
  exact Writes.flatMap fun p _ => Writes.mono (luTask_writes k p) (fun x hx => by rw [hx, hid])

omit [DecidableEq 𝕜] in
theorem pzlauum_good {env : M → MatEnv} (hlk : IsLauum lk) (hA : FitsOn env b (inTri u) A)
    (hm : A.d.m = N) (hn : A.d.n = N) :
    Good (evalid env) (pzlauum lk u A) := by
  have hv : ∀ m n, n ≤ m → ∀ i j, Tile.box (pr u (tdim N b m) (tdim N b n)) (pr u (tdim N b n) (tdim N b m)) i j →
      evalid env (pt u A (m, n)) i j := by
    intro m n hnm i j hij
    cases u
    · simp only [pt, pr, reduceCtorEq, if_false] at hij ⊢
      exact hA.validOn hnm (by rw [hm]; exact hij.1) (by rw [hn]; exact hij.2)
    · simp only [pt, pr, if_true] at hij ⊢
      exact hA.validOn hnm (by rw [hm]; exact hij.1) (by rw [hn]; exact hij.2)
  have hvd : ∀ m i j, i < tdim N b m → j < tdim N b m → evalid env (pt u A (m, m)) i j := by
    intro m i j hi hj
    refine hv m m (le_refl _) i j ⟨?_, ?_⟩ <;> unfold pr <;> rw [ite_self] <;> assumption
  rw [pzlauum_eq hA.al hm hn]
  refine Good.flatMap fun k hk => Good.map fun p hp => ?_
  rw [mem_luIdx] at hp
  obtain ⟨m, n⟩ := p
  simp only at hp
  unfold luTask
  by_cases h1 : (m, n) = (k, k)
  · rw [if_pos h1, h1]
    exact Good.single (op0_local fun C C' h => hlk.loc u _ C C' h) op0_declared
      (op0_inside fun i j hij => hvd k i j hij.1 hij.2.1)
  · rw [if_neg h1]
    by_cases h2 : m = k
    · rw [if_pos h2]
      subst h2
      refine Good.single coreTrmm_local op1_declared (op1_inside ?_ (hv m n (by omega)))
      rintro i j ⟨hi, hj, -⟩
      have : (if (if u = .lower then Side.left else Side.right) = Side.left then pr u (tdim N b m) (tdim N b n)
          else pr u (tdim N b n) (tdim N b m)) = tdim N b m := by
        cases u <;> simp [pr]
      rw [this] at hi hj
      exact hvd m i j hi hj
    · rw [if_neg h2]
      have e1 := hv k m (by omega)
      have e2 := hv k n (by omega)
      by_cases h3 : m = n
      · rw [if_pos h3]
        refine Good.single coreRk_local op1_declared (op1_inside ?_ fun i j hij => ?_)
        · subst h3
          cases u
          · simpa [ptr2, pr] using e2
          · simpa [ptr2, pr] using e2
        · subst h3
          exact hvd m i j hij.1 hij.2.1
      · rw [if_neg h3]
        refine gemm_single_good ?_ ?_ (hv m n (by omega))
        · cases u
          · simpa [ptr2, pr] using e2
          · simpa [ptr2, pr] using e1
        · cases u
          · simpa [ptr1, pr] using e1
          · simpa [ptr1, pr] using e2

end Verif.Tile

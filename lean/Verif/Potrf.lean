/-
Cholesky factorization: compute/pzpotrf.c and its kernel.
-/
import Verif.CholMath
import Verif.GExec
import Verif.Trsm

namespace Verif.Tile

open Verif.Layout Finset

universe u v

variable {M : Type u} {𝕜 : Type v} [RCLike 𝕜] [DecidableEq 𝕜]

/-- `plasma_core_omp_zpotrf` (core_blas/core_zpotrf.c:66-82): the kernel, and
`plasma_request_fail(sequence, request, iinfo+info)` if it fails. -/
noncomputable def corePotrf (pk : Uplo → Nat → Tl 𝕜 → Tl 𝕜) (info : Uplo → Nat → Tl 𝕜 → Nat) (u : Uplo)
    (n : Nat) (a : M) (iinfo : Nat) : GTTask M 𝕜 where
  task := op0 a (tri u n) (pk u n)
  code := fun s => if info u n (s a) ≠ 0 then (iinfo : Int) + info u n (s a) else 0

/-- `plasma_pzpotrf` (compute/pzpotrf.c:27-127). -/
noncomputable def pzpotrf (pk : Uplo → Nat → Tl 𝕜 → Tl 𝕜) (info : Uplo → Nat → Tl 𝕜 → Nat) (dv : 𝕜 → 𝕜 → 𝕜)
    (u : Uplo) (A : TMat M) : List (GTTask (M × Nat × Nat) 𝕜) :=
  if u = .lower then
    (List.range A.d.mt).flatMap fun k =>
      corePotrf pk info .lower (A.d.mview k) (A.at' k k) (A.d.nb * k) ::
      okT (((span (k+1) A.d.mt).map fun m =>
          coreTrsm dv .right .lower .conjTrans .nonUnit (A.d.mview m) A.d.mb 1 (A.at' k k) (A.at' m k)) ++
        (span (k+1) A.d.mt).flatMap fun m =>
          coreRk true reP .lower .noTrans (A.d.mview m) A.d.mb (-1) (A.at' m k) 1 (A.at' m m) ::
          (span (k+1) m).map fun n =>
            coreGemm .noTrans .conjTrans (A.d.mview m) A.d.mb A.d.mb (-1) (A.at' m k) (A.at' n k) 1
              (A.at' m n))
  else
    (List.range A.d.nt).flatMap fun k =>
      corePotrf pk info .upper (A.d.nview k) (A.at' k k) (A.d.nb * k) ::
      okT (((span (k+1) A.d.nt).map fun m =>
          coreTrsm dv .left .upper .conjTrans .nonUnit A.d.nb (A.d.nview m) 1 (A.at' k k) (A.at' k m)) ++
        (span (k+1) A.d.nt).flatMap fun m =>
          coreRk true reP .upper .conjTrans (A.d.nview m) A.d.mb (-1) (A.at' k m) 1 (A.at' m m) ::
          (span (k+1) m).map fun n =>
            coreGemm .conjTrans .noTrans A.d.mb (A.d.nview m) A.d.mb (-1) (A.at' k n) (A.at' k m) 1
              (A.at' n m))

/-! ### Kernels on the lower view of their tiles -/

/-- Tile `(m, n)`, `n ≤ m`, of the lower view. -/
def pt (u : Uplo) (A : TMat M) (p : Nat × Nat) : M × Nat × Nat :=
  if u = .lower then A.at' p.1 p.2 else A.at' p.2 p.1

omit [RCLike 𝕜] [DecidableEq 𝕜] in
theorem pt_inj {u : Uplo} {A : TMat M} {p q : Nat × Nat} : pt u A p = pt u A q ↔ p = q := by
  obtain ⟨a, b⟩ := p
  obtain ⟨c, d⟩ := q
  unfold pt
  split <;> rw [TMat.at'_inj] <;> simp [Prod.mk.injEq, and_comm]

omit [DecidableEq 𝕜] in
theorem lowE_el {u : Uplo} {A : TMat M} {b : Nat} (hA : A.Al b) (s : Store (M × Nat × Nat) 𝕜)
    {m n i j : Nat} (hi : i < b) (hj : j < b) :
    lowE u (A.el s) (m * b + i) (n * b + j) = lowE u (s (pt u A (m, n))) i j := by
  unfold lowE pt
  cases u
  · simp only [reduceCtorEq, if_false]; rw [hA.el_tile s hj hi]
  · simp only [if_true]; rw [hA.el_tile s hi hj]

/-- Side of the solve, and row/column sizes of an off-diagonal tile. -/
def pside (u : Uplo) : Side := if u = .lower then .right else .left
def pr (u : Uplo) (x y : Nat) : Nat := if u = .lower then x else y
def ptr1 (u : Uplo) : Trans := if u = .lower then .noTrans else .conjTrans
def ptr2 (u : Uplo) : Trans := if u = .lower then .conjTrans else .noTrans

variable {dv : 𝕜 → 𝕜 → 𝕜} {u : Uplo}

omit [DecidableEq 𝕜] in
theorem trE_nonUnit {A : Nat → Nat → 𝕜} {i j : Nat} (h : inTri u i j) :
    trE u .nonUnit A i j = A i j := by
  unfold trE
  by_cases hij : i = j
  · simp [hij]
  · rw [if_neg hij, if_pos h]

theorem pk_trsm (hdv : IsDiv dv) {m n : Nat} {a c : M} (s : Store M 𝕜)
    (hd : ∀ i, i < n → s a i i ≠ 0) {i j : Nat} (hi : i < m) (hj : j < n) :
    ∑ l ∈ range (j + 1),
      lowE u ((coreTrsm dv (pside u) u .conjTrans .nonUnit (pr u m n) (pr u n m) 1 a c).run s c) i l *
        star (lowE u (s a) j l) = lowE u (s c) i j := by
  have hsub : range (j + 1) ⊆ range n := by
    intro l hl; rw [mem_range] at *; omega
  cases u
  · simp only [pside, pr, reduceCtorEq, if_false, lowE]
    have h := trsmK_spec hdv (sd := .left) (u := .upper) (t := .conjTrans) (d := .nonUnit) (m := n)
      (n := m) (alpha := (1 : 𝕜)) one_ne_zero (X := s a) (Y := s c) (by
        intro i hi
        rw [trE_nonUnit (by simp [inTri])]
        exact hd i hi) (r := j) (c := i) hj
    simp only [trN, trT, trEl, if_true, one_mul, opE] at h
    rw [← h, star_sum]
    refine sum_subset_zero_on_sdiff hsub ?_ ?_
    · intro l hl
      rw [mem_sdiff, mem_range, mem_range] at hl
      rw [trE_out (by simp only [inTri]; omega)]; simp
    · intro l hl
      rw [mem_range] at hl
      rw [coreTrsm_run s ⟨by omega, hi⟩, star_mul', star_star, star_star,
        trE_nonUnit (by simp only [inTri]; omega), mul_comm]
  · simp only [pside, pr, if_true, lowE]
    have h := trsmK_spec hdv (sd := .right) (u := .lower) (t := .conjTrans) (d := .nonUnit) (m := m)
      (n := n) (alpha := (1 : 𝕜)) one_ne_zero (X := s a) (Y := s c) (by
        intro i hi
        rw [trE_nonUnit (by simp [inTri])]
        exact hd i hi) (r := j) (c := i) hj
    simp only [trN, trT, trEl, if_false, reduceCtorEq, one_mul, opE] at h
    rw [← h]
    refine sum_subset_zero_on_sdiff hsub ?_ ?_
    · intro l hl
      rw [mem_sdiff, mem_range, mem_range] at hl
      rw [trE_out (by simp only [inTri]; omega)]; simp
    · intro l hl
      rw [mem_range] at hl
      rw [coreTrsm_run s ⟨hi, by omega⟩, trE_nonUnit (by simp only [inTri]; omega), mul_comm]

omit [DecidableEq 𝕜] in
theorem reP_star (x : 𝕜) : reP (star x) = reP x := by simp [reP]

omit [DecidableEq 𝕜] in
theorem pk_herk {m n : Nat} {a c : M} (s : Store M 𝕜) {i j : Nat} (hi : i < m) (hj : j ≤ i) :
    lowE u ((coreRk true reP u (ptr1 u) m n (-1) a 1 c).run s c) i j =
      hd (lowE u (s c)) i j - ∑ l ∈ range n, lowE u (s a) i l * star (lowE u (s a) j l) := by
  cases u
  · simp only [lowE, ptr1, reduceCtorEq, if_false, coreRk]
    rw [op1_self, paste_in ⟨by omega, hi, hj⟩]
    simp only [dre, opE, cj, hd, lowE, reduceCtorEq, if_false, true_and, if_true, one_mul, star_add, star_mul', star_neg, star_one, star_star,
      star_sum]
    have : (if i = j then reP (star (s c j i)) else star (s c j i)) =
        star (if j = i then reP (s c j i) else s c j i) := by
      split
      · rename_i h; rw [if_pos h.symm, reP_star, reP_isRe.sa]
      · rename_i h; rw [if_neg (Ne.symm h)]
    rw [this]
    rw [sub_eq_add_neg, neg_one_mul]
    congr 2
    exact sum_congr rfl fun l _ => mul_comm _ _
  · simp only [lowE, ptr1, if_true, coreRk]
    rw [op1_self, paste_in ⟨hi, by omega, hj⟩]
    simp only [dre, opE, cj, hd, lowE, true_and, if_true, one_mul]
    ring

omit [DecidableEq 𝕜] in
theorem pk_gemm {m n k : Nat} {a b c : M} (s : Store M 𝕜) {i j : Nat} (hi : i < m) (hj : j < n) :
    lowE u ((coreGemm (ptr1 u) (ptr2 u) (pr u m n) (pr u n m) k (-1) (if u = .lower then a else b)
        (if u = .lower then b else a) 1 c).run s c) i j =
      lowE u (s c) i j - ∑ l ∈ range k, lowE u (s a) i l * star (lowE u (s b) j l) := by
  cases u
  · simp only [lowE, ptr1, ptr2, pr, reduceCtorEq, if_false]
    rw [gemm_run s ⟨hj, hi⟩]
    simp only [opE, one_mul, star_add, star_mul', star_neg, star_one, star_star, star_sum]
    rw [sub_eq_add_neg, neg_one_mul]
    congr 2
    exact sum_congr rfl fun l _ => mul_comm _ _
  · simp only [lowE, ptr1, ptr2, pr, if_true]
    rw [gemm_run s ⟨hi, hj⟩]
    simp only [opE, one_mul]
    ring


/-! ### One step -/

variable {pk : Uplo → Nat → Tl 𝕜 → Tl 𝕜} {info : Uplo → Nat → Tl 𝕜 → Nat} {A : TMat M} {b N : Nat}

/-- Tiles updated in step `k` after the diagonal tile, in order of creation. -/
def pkIdx (K k : Nat) : List (Nat × Nat) :=
  ((span (k+1) K).map fun m => (m, k)) ++
    (span (k+1) K).flatMap fun m => (m, m) :: (span (k+1) m).map fun n => (m, n)

/-- The task of step `k` that updates tile `p`. -/
noncomputable def pkTask (dv : 𝕜 → 𝕜 → 𝕜) (u : Uplo) (A : TMat M) (b N k : Nat) (p : Nat × Nat) :
    TTask (M × Nat × Nat) 𝕜 :=
  if p.2 = k then
    coreTrsm dv (pside u) u .conjTrans .nonUnit (pr u (tdim N b p.1) b) (pr u b (tdim N b p.1)) 1
      (pt u A (k, k)) (pt u A p)
  else if p.2 = p.1 then
    coreRk true reP u (ptr1 u) (tdim N b p.1) b (-1) (pt u A (p.1, k)) 1 (pt u A p)
  else
    coreGemm (ptr1 u) (ptr2 u) (pr u (tdim N b p.1) b) (pr u b (tdim N b p.1)) b (-1)
      (if u = .lower then pt u A (p.1, k) else pt u A (p.2, k))
      (if u = .lower then pt u A (p.2, k) else pt u A (p.1, k)) 1 (pt u A p)

/-- Step `k`. -/
noncomputable def pkStep (pk : Uplo → Nat → Tl 𝕜 → Tl 𝕜) (info : Uplo → Nat → Tl 𝕜 → Nat) (dv : 𝕜 → 𝕜 → 𝕜)
    (u : Uplo) (A : TMat M) (b N k : Nat) : List (GTTask (M × Nat × Nat) 𝕜) :=
  corePotrf pk info u (tdim N b k) (pt u A (k, k)) (b * k) ::
    okT ((pkIdx (ceilDiv N b) k).map (pkTask dv u A b N k))

theorem mem_pkIdx {K k : Nat} {p : Nat × Nat} :
    p ∈ pkIdx K k ↔ k < p.1 ∧ p.1 < K ∧ (p.2 = k ∨ (k < p.2 ∧ p.2 ≤ p.1)) := by
  obtain ⟨m, n⟩ := p
  simp only [pkIdx, List.mem_append, List.mem_map, List.mem_flatMap, mem_span, List.mem_cons, Prod.mk.injEq]
  constructor
  · rintro (⟨x, hx, rfl, rfl⟩ | ⟨x, hx, ⟨rfl, rfl⟩ | ⟨y, hy, rfl, rfl⟩⟩) <;> omega
  · rintro ⟨h1, h2, h3⟩
    by_cases hn : k = n
    · exact Or.inl ⟨m, by omega, rfl, hn⟩
    · refine Or.inr ⟨m, by omega, ?_⟩
      by_cases hnm : m = n
      · exact Or.inl ⟨rfl, hnm.symm⟩
      · exact Or.inr ⟨n, by omega, rfl, rfl⟩

theorem pzpotrf_eq (hA : A.Al b) (hm : A.d.m = N) (hn : A.d.n = N) :
    pzpotrf pk info dv u A = (List.range (ceilDiv N b)).flatMap (pkStep pk info dv u A b N) := by
  have hmt : A.d.mt = ceilDiv N b := by rw [hA.mt_eq, hm]
  have hnt : A.d.nt = ceilDiv N b := by rw [hA.nt_eq, hn]
  have hmv : ∀ k, k < ceilDiv N b → A.d.mview k = tdim N b k := fun k hk => by
    rw [hA.mview (by omega), hm]
  have hnv : ∀ k, k < ceilDiv N b → A.d.nview k = tdim N b k := fun k hk => by
    rw [hA.nview (by omega), hn]
  unfold pzpotrf
  cases u
  all_goals
    simp only [reduceCtorEq, if_false, if_true, hnt, hmt, hA.nb, hA.mb]
    apply List.flatMap_congr
    intro k hk
    rw [List.mem_range] at hk
    unfold pkStep pkIdx
    rw [List.map_append, List.map_map, List.map_flatMap]
    congr 1
    · simp only [pt, reduceCtorEq, if_false, if_true]
      first | rw [hmv k hk] | rw [hnv k hk]
    · congr 1
      congr 1
      · apply List.map_congr_left
        intro m hm
        rw [mem_span] at hm
        simp only [Function.comp, pkTask, if_true, pside, pr, pt, reduceCtorEq, if_false]
        first | rw [hmv m (by omega)] | rw [hnv m (by omega)]
      · apply List.flatMap_congr
        intro m hm
        rw [mem_span] at hm
        rw [List.map_cons, List.map_map]
        congr 1
        · have : m ≠ k := by omega
          simp only [pkTask, if_true, ptr1, pt, reduceCtorEq, if_false, this]
          first | rw [hmv m (by omega)] | rw [hnv m (by omega)]
        · apply List.map_congr_left
          intro n hn
          rw [mem_span] at hn
          have h1 : n ≠ k := by omega
          have h2 : n ≠ m := by omega
          simp only [Function.comp, pkTask, if_true, ptr1, ptr2, pr, pt, reduceCtorEq, if_false, h1, h2]
          first | rw [hmv m (by omega)] | rw [hnv m (by omega)]


/-- `p` is updated before `q` in step `k`. -/
def PkBefore (k : Nat) (p q : Nat × Nat) : Prop := p ≠ q ∧ q ≠ (k, k) ∧ (q.2 = k → p.2 = k)

theorem pkIdx_pairwise (K k : Nat) : ((k, k) :: pkIdx K k).Pairwise (PkBefore k) := by
  rw [List.pairwise_cons]
  constructor
  · intro q hq
    rw [mem_pkIdx] at hq
    have : q ≠ (k, k) := by rintro rfl; simp at hq
    exact ⟨this.symm, this, fun _ => rfl⟩
  · have hl2 : (span (k+1) K).flatMap (fun m => (m, m) :: (span (k+1) m).map fun n => (m, n)) =
        triPairs (span (k+1) K) (fun m => span (k+1) m) := rfl
    unfold pkIdx
    rw [hl2, List.pairwise_append]
    refine ⟨?_, ?_, ?_⟩
    · rw [List.pairwise_map]
      refine List.Pairwise.imp_of_mem ?_ (nodup_span (lo := k+1) (hi := K))
      intro a b _ hb hab
      rw [mem_span] at hb
      refine ⟨?_, ?_, fun _ => rfl⟩
      · simpa using hab
      · simp; omega
    · refine List.Pairwise.imp_of_mem ?_ (nodup_triPairs (nodup_span (lo := k+1) (hi := K))
        (S := fun m => span (k+1) m) (fun _ => nodup_span) (fun n => by rw [mem_span]; omega))
      intro a b _ hb hab
      rw [mem_triPairs, mem_span, mem_span] at hb
      refine ⟨hab, ?_, fun h => ?_⟩
      · rintro rfl; simp at hb
      · omega
    · intro a ha b hb
      obtain ⟨m, hm, rfl⟩ := List.mem_map.mp ha
      rw [mem_triPairs, mem_span, mem_span] at hb
      rw [mem_span] at hm
      refine ⟨?_, ?_, fun _ => rfl⟩
      · rintro rfl; simp at hb; omega
      · rintro rfl; simp at hb

/-- All tasks of step `k`. -/
noncomputable def pkBody (pk : Uplo → Nat → Tl 𝕜 → Tl 𝕜) (dv : 𝕜 → 𝕜 → 𝕜) (u : Uplo) (A : TMat M)
    (b N k : Nat) (p : Nat × Nat) : List (TTask (M × Nat × Nat) 𝕜) :=
  if p = (k, k) then [op0 (pt u A p) (tri u (tdim N b k)) (pk u (tdim N b k))]
  else [pkTask dv u A b N k p]

theorem tasks_pkStep (k : Nat) : tasks (pkStep pk info dv u A b N k) =
    ((k, k) :: pkIdx (ceilDiv N b) k).flatMap (pkBody pk dv u A b N k) := by
  unfold pkStep
  rw [tasks_cons, tasks_okT, List.flatMap_cons, map_flatMap_sing]
  simp only [pkBody, if_true, List.singleton_append, corePotrf]
  congr 1
  apply List.flatMap_congr
  intro p hp
  rw [mem_pkIdx] at hp
  rw [pkBody, if_neg]
  rintro rfl; simp at hp

/-- Tiles used by the task that updates `p`. -/
def pkD (u : Uplo) (A : TMat M) (k : Nat) (p : Nat × Nat) (x : M × Nat × Nat) : Prop :=
  x = pt u A p ∨ (p.2 = k ∧ x = pt u A (k, k)) ∨
    (p.2 ≠ k ∧ (x = pt u A (p.1, k) ∨ x = pt u A (p.2, k)))

theorem pkBody_writes (k : Nat) (p : Nat × Nat) :
    Writes (fun x => x = pt u A p) (pkBody pk dv u A b N k p) := by
  unfold pkBody
  refine Writes.ite (fun _ => writes_op0 rfl) (fun _ => ?_)
  unfold pkTask
  refine single_ite (writes_op1 rfl) (single_ite (writes_op1 rfl) (writes_op2 rfl))

theorem pkBody_within (hpk : IsPotrf pk info) (k : Nat) (p : Nat × Nat) :
    Within (pkD u A k p) (pkBody pk dv u A b N k p) := by
  unfold pkBody
  refine Within.ite (fun _ => Within.op0 (op0_local fun C C' h => (hpk.loc u _ C C' h).2) (Or.inl rfl))
    (fun _ => ?_)
  unfold pkTask
  by_cases h1 : p.2 = k
  · rw [if_pos h1]
    exact Within.op1 coreTrsm_local (Or.inr (Or.inl ⟨h1, rfl⟩)) (Or.inl rfl)
  · rw [if_neg h1]
    refine single_ite ?_ ?_
    · exact Within.op1 coreRk_local (Or.inr (Or.inr ⟨h1, Or.inl rfl⟩)) (Or.inl rfl)
    · refine gemm_within ?_ ?_ (Or.inl rfl)
      · split
        · exact Or.inr (Or.inr ⟨h1, Or.inl rfl⟩)
        · exact Or.inr (Or.inr ⟨h1, Or.inr rfl⟩)
      · split
        · exact Or.inr (Or.inr ⟨h1, Or.inr rfl⟩)
        · exact Or.inr (Or.inr ⟨h1, Or.inl rfl⟩)

/-- Every tile is updated from its own initial contents and the final contents of the
others. -/
theorem pkStep_tile (hpk : IsPotrf pk info) (k : Nat) (s : Store (M × Nat × Nat) 𝕜) {p : Nat × Nat}
    (hp : p ∈ (k, k) :: pkIdx (ceilDiv N b) k) {s' : Store (M × Nat × Nat) 𝕜}
    (h1 : s' (pt u A p) = s (pt u A p))
    (h2 : ∀ x, x ≠ pt u A p → s' x = texec (tasks (pkStep pk info dv u A b N k)) s x) :
    texec (tasks (pkStep pk info dv u A b N k)) s (pt u A p) =
      texec (pkBody pk dv u A b N k p) s' (pt u A p) := by
  rw [tasks_pkStep] at *
  refine par_final (R := PkBefore k) (D := pkD u A k) (pkIdx_pairwise _ k) (fun p => Or.inl rfl) ?_
    (fun p _ => pkBody_within hpk k p) (fun p _ => pkBody_writes k p) s hp h1 (fun x _ hx => h2 x hx)
  rintro p q ⟨hpq, hq, hqk⟩ (h | ⟨_, h⟩ | ⟨hk, h | h⟩) <;> rw [pt_inj] at h
  · exact hpq h.symm
  · exact hq h
  · exact hk (hqk (by rw [h]))
  · exact hk (hqk (by rw [h]))

theorem pkStep_frame (k : Nat) (s : Store (M × Nat × Nat) 𝕜) {x : M × Nat × Nat}
    (hx : ∀ p ∈ (k, k) :: pkIdx (ceilDiv N b) k, x ≠ pt u A p) :
    texec (tasks (pkStep pk info dv u A b N k)) s x = s x := by
  rw [tasks_pkStep]
  exact par_frame (fun p _ => pkBody_writes k p) s hx

section step
variable (hpk : IsPotrf pk info) (hdv : IsDiv dv) (hA : A.Al b) (k : Nat) (hk : k < ceilDiv N b)
  (s : Store (M × Nat × Nat) 𝕜)
include hpk hdv hA hk

/-- One step of the factorization preserves the invariant. -/
theorem pkStep_inv {A0 : Nat → Nat → 𝕜} (h : CholInv N (k * b) A0 (lowE u (A.el s)))
    (hc : (corePotrf pk info u (tdim N b k) (pt u A (k, k)) (b * k)).code s = 0) :
    CholInv N ((k + 1) * b) A0 (lowE u (A.el (texec (tasks (pkStep pk info dv u A b N k)) s))) := by
  classical
  have hb := hA.pos
  set F := texec (tasks (pkStep pk info dv u A b N k)) s with hF
  have hinfo : info u (tdim N b k) (s (pt u A (k, k))) = 0 := by
    by_contra hne
    simp only [corePotrf, if_pos hne] at hc
    omega
  have hlt : ∀ {m i}, m * b + i < N → i < b → i < tdim N b m := by
    intro m i h1 h2; rw [tdim_row]; exact ⟨h2, h1⟩
  have hmK : ∀ {m i}, m * b + i < N → m < ceilDiv N b := by
    intro m i h1; rw [lt_ceilDiv hb]; omega
  -- the diagonal tile
  have hdg : ∀ i j, tri u (tdim N b k) i j →
      F (pt u A (k, k)) i j = pk u (tdim N b k) (s (pt u A (k, k))) i j := by
    intro i j hij
    have := pkStep_tile (dv := dv) (u := u) (A := A) (b := b) (N := N) hpk k s (p := (k, k))
      (List.mem_cons_self ..) (s' := Function.update F (pt u A (k, k)) (s (pt u A (k, k)))) (by simp)
      (fun x hx => by simp [hx, hF])
    rw [hF, this]
    simp only [pkBody, if_true, texec_cons, texec_nil]
    rw [op0_self, paste_in hij]; simp
  have hchol := (hpk.ok u _ _ hinfo).congr (fun _ _ _ _ => rfl) (L' := lowE u (F (pt u A (k, k)))) (by
    intro r c hcr hr
    unfold lowE
    cases u
    · simp only [reduceCtorEq, if_false]; rw [hdg _ _ ⟨by omega, hr, hcr⟩]
    · simp only [if_true]; rw [hdg _ _ ⟨hr, by omega, hcr⟩])
  have hne : ∀ i, i < tdim N b k → F (pt u A (k, k)) i i ≠ 0 := by
    intro i hi
    have := (hchol.pos i hi).ne
    intro h0; apply this; unfold lowE; split <;> simp [h0]
  -- the other tiles
  have htile : ∀ p, p ∈ pkIdx (ceilDiv N b) k → F (pt u A p) =
      (pkTask dv u A b N k p).run (Function.update F (pt u A p) (s (pt u A p))) (pt u A p) := by
    intro p hp
    have := pkStep_tile (dv := dv) (u := u) (A := A) (b := b) (N := N) hpk k s (p := p)
      (List.mem_cons_of_mem _ hp) (s' := Function.update F (pt u A p) (s (pt u A p))) (by simp)
      (fun x hx => by simp [hx, hF])
    rw [← hF] at this
    rw [this, pkBody, if_neg]
    · rfl
    · rintro rfl; rw [mem_pkIdx] at hp; simp at hp
  rw [Nat.add_mul, Nat.one_mul]
  refine h.step ?_ ?_ ?_ ?_
  · -- finished columns
    intro r c hcr hr hc
    have hcb : c / b < k := by rw [Nat.div_lt_iff_lt_mul hb]; exact hc
    rw [← divmod r b, ← divmod c b, lowE_el hA _ (Nat.mod_lt _ hb) (Nat.mod_lt _ hb),
      lowE_el hA _ (Nat.mod_lt _ hb) (Nat.mod_lt _ hb), hF, pkStep_frame]
    intro p hp he
    rw [pt_inj] at he
    subst he
    rw [List.mem_cons, mem_pkIdx] at hp
    rcases hp with hp | hp
    · rw [Prod.mk.injEq] at hp; omega
    · simp only at hp; omega
  · intro j hj hjN
    rw [lowE_el hA _ hj hj]
    exact hchol.pos j (hlt hjN hj)
  · intro r j hj hjr hr
    obtain ⟨m, i, hi, rfl⟩ : ∃ m i, i < b ∧ r = m * b + i :=
      ⟨r / b, r % b, Nat.mod_lt _ hb, (divmod r b).symm⟩
    have hkm : k ≤ m := by
      by_contra hc
      have : (m + 1) * b ≤ k * b := Nat.mul_le_mul_right _ (by omega)
      rw [Nat.add_mul] at this; omega
    have hsum : ∑ l ∈ range (j + 1), lowE u (A.el F) (m * b + i) (k * b + l) *
          star (lowE u (A.el F) (k * b + j) (k * b + l)) =
        ∑ l ∈ range (j + 1), lowE u (F (pt u A (m, k))) i l * star (lowE u (F (pt u A (k, k))) j l) := by
      refine sum_congr rfl fun l hl => ?_
      rw [mem_range] at hl
      rw [lowE_el hA _ hi (by omega), lowE_el hA _ hj (by omega)]
    rw [hsum]
    rcases Nat.eq_or_lt_of_le hkm with rfl | hkm
    · rw [hchol.eq i j (by omega) (hlt hr hi)]
      unfold hd
      rw [lowE_el hA _ hi hj]
      simp
    · have hp : (m, k) ∈ pkIdx (ceilDiv N b) k := by
        rw [mem_pkIdx]; exact ⟨hkm, hmK hr, Or.inl rfl⟩
      have hbk : tdim N b k = b := tdim_full hb rfl (by have := hmK hr; omega)
      rw [htile _ hp, pkTask, if_pos rfl]
      have hne' : pt u A (k, k) ≠ pt u A (m, k) := by
        rw [Ne, pt_inj, Prod.mk.injEq]; omega
      have := pk_trsm (u := u) hdv (m := tdim N b m) (n := b) (a := pt u A (k, k)) (c := pt u A (m, k))
        (Function.update F (pt u A (m, k)) (s (pt u A (m, k)))) (by
          intro i hi
          rw [Function.update_of_ne hne']
          exact hne i (by omega)) (hlt hr hi) hj
      rw [Function.update_of_ne hne', Function.update_self] at this
      rw [this, hd_off _ (by
        have : (k + 1) * b ≤ m * b := Nat.mul_le_mul_right _ hkm
        rw [Nat.add_mul] at this; omega), lowE_el hA _ hi hj]
  · intro r c hcr hr hc
    obtain ⟨m, i, hi, rfl⟩ : ∃ m i, i < b ∧ r = m * b + i :=
      ⟨r / b, r % b, Nat.mod_lt _ hb, (divmod r b).symm⟩
    obtain ⟨n, j, hj, rfl⟩ : ∃ m i, i < b ∧ c = m * b + i :=
      ⟨c / b, c % b, Nat.mod_lt _ hb, (divmod c b).symm⟩
    have hkn : k < n := by
      by_contra hcc
      have : n * b ≤ k * b := Nat.mul_le_mul_right _ (by omega)
      omega
    have hnm : n ≤ m := by
      by_contra hcc
      have : (m + 1) * b ≤ n * b := Nat.mul_le_mul_right _ (by omega)
      rw [Nat.add_mul] at this; omega
    have hp : (m, n) ∈ pkIdx (ceilDiv N b) k := by
      rw [mem_pkIdx]; exact ⟨by omega, hmK hr, Or.inr ⟨hkn, hnm⟩⟩
    have hsum : ∑ l ∈ range b, lowE u (A.el F) (m * b + i) (k * b + l) *
          star (lowE u (A.el F) (n * b + j) (k * b + l)) =
        ∑ l ∈ range b, lowE u (F (pt u A (m, k))) i l * star (lowE u (F (pt u A (n, k))) j l) := by
      refine sum_congr rfl fun l hl => ?_
      rw [mem_range] at hl
      rw [lowE_el hA _ hi hl, lowE_el hA _ hj hl]
    have hm' : pt u A (m, k) ≠ pt u A (m, n) := by rw [Ne, pt_inj, Prod.mk.injEq]; omega
    have hn' : pt u A (n, k) ≠ pt u A (m, n) := by rw [Ne, pt_inj, Prod.mk.injEq]; omega
    rw [hsum, lowE_el hA _ hi hj, htile _ hp, pkTask, if_neg (show ¬ n = k by omega)]
    rcases Nat.eq_or_lt_of_le hnm with rfl | hnm
    · rw [if_pos rfl]
      have := pk_herk (u := u) (m := tdim N b n) (n := b) (a := pt u A (n, k)) (c := pt u A (n, n))
        (Function.update F (pt u A (n, n)) (s (pt u A (n, n)))) (i := i) (j := j) (hlt hr hi) (by omega)
      rw [Function.update_of_ne hm', Function.update_self] at this
      rw [this]
      congr 1
      unfold hd
      rw [lowE_el hA _ hi hj]
      simp
    · rw [if_neg (show ¬ n = m by omega)]
      have := pk_gemm (u := u) (m := tdim N b m) (n := b) (k := b) (a := pt u A (m, k))
        (b := pt u A (n, k)) (c := pt u A (m, n))
        (Function.update F (pt u A (m, n)) (s (pt u A (m, n)))) (i := i) (j := j) (hlt hr hi) hj
      rw [Function.update_of_ne hm', Function.update_of_ne hn', Function.update_self] at this
      rw [this, hd_off _ (by
        have : (n + 1) * b ≤ m * b := Nat.mul_le_mul_right _ hnm
        rw [Nat.add_mul] at this; omega), lowE_el hA _ hi hj]

end step

/-! ### All steps -/

section codes
variable {M' : Type u} {α : Type v} {t : Nat → GTTask M' α} {R : Nat → List (TTask M' α)}

/-- Success of a program of steps with one task that may fail each. -/
theorem steps_zero {K : Nat} {s : Store M' α}
    (h : ∀ i, tcode ((List.range K).flatMap fun k => t k :: okT (R k)) s i = 0) :
    ∀ k, k < K → (t k).code (texec (tasks ((List.range k).flatMap fun k => t k :: okT (R k))) s) = 0 := by
  induction K with
  | zero => intro k hk; omega
  | succ K ih =>
    intro k hk
    rw [List.range_succ, List.flatMap_append, List.flatMap_singleton] at h
    rcases Nat.lt_or_ge k K with hlt | hge
    · refine ih ?_ k hlt
      intro i
      by_cases hi : i < ((List.range K).flatMap fun k => t k :: okT (R k)).length
      · rw [← h i, tcode_append_left _ _ _ hi]
      · exact tcode_len _ _ (by omega)
    · have : k = K := by omega
      subst this
      rw [← h (((List.range k).flatMap fun k => t k :: okT (R k)).length + 0), tcode_append_right,
        tcode_cons_zero]

/-- The first failure of such a program. -/
theorem steps_first {K i : Nat} {s : Store M' α}
    (h : tcode ((List.range K).flatMap fun k => t k :: okT (R k)) s i ≠ 0)
    (hb : ∀ b < i, tcode ((List.range K).flatMap fun k => t k :: okT (R k)) s b = 0) :
    ∃ k, k < K ∧
      (t k).code (texec (tasks ((List.range k).flatMap fun k => t k :: okT (R k))) s) =
        tcode ((List.range K).flatMap fun k => t k :: okT (R k)) s i ∧
      ∀ k', k' < k →
        (t k').code (texec (tasks ((List.range k').flatMap fun k => t k :: okT (R k))) s) = 0 := by
  induction K with
  | zero => exact absurd (by simp [tcode]) h
  | succ K ih =>
    rw [List.range_succ, List.flatMap_append, List.flatMap_singleton] at h hb ⊢
    by_cases hi : i < ((List.range K).flatMap fun k => t k :: okT (R k)).length
    · rw [tcode_append_left _ _ _ hi] at h ⊢
      obtain ⟨k, hk, h1, h2⟩ := ih h (fun b hbi => by
        rw [← hb b hbi, tcode_append_left _ _ _ (by omega)])
      exact ⟨k, by omega, h1, h2⟩
    · obtain ⟨j, rfl⟩ := Nat.exists_eq_add_of_le (Nat.le_of_not_lt hi)
      rw [tcode_append_right] at h ⊢
      cases j with
      | succ j => rw [tcode_cons_succ, tcode_ok] at h; exact absurd rfl h
      | zero =>
        refine ⟨K, by omega, by rw [tcode_cons_zero], ?_⟩
        apply steps_zero
        intro i
        by_cases hi' : i < ((List.range K).flatMap fun k => t k :: okT (R k)).length
        · rw [← hb i (by omega), tcode_append_left _ _ _ hi']
        · exact tcode_len _ _ (by omega)

end codes

section all
variable (hpk : IsPotrf pk info) (hdv : IsDiv dv) (hA : A.Al b)
include hpk hdv hA

theorem pkSteps_inv (s : Store (M × Nat × Nat) 𝕜) {K : Nat} (hK : K ≤ ceilDiv N b)
    (hz : ∀ k, k < K → (corePotrf pk info u (tdim N b k) (pt u A (k, k)) (b * k)).code
      (texec (tasks ((List.range k).flatMap (pkStep pk info dv u A b N))) s) = 0) :
    CholInv N (K * b) (lowE u (A.el s))
      (lowE u (A.el (texec (tasks ((List.range K).flatMap (pkStep pk info dv u A b N))) s))) := by
  induction K with
  | zero => simpa using CholInv.init N (lowE u (A.el s))
  | succ K ih =>
    have h1 := ih (by omega) (fun k hk => hz k (by omega))
    have h2 := pkStep_inv (u := u) hpk hdv hA K (by omega) _ h1 (hz K (by omega))
    rw [List.range_succ, List.flatMap_append, List.flatMap_singleton, tasks_append, texec_append]
    exact h2

/-- Without a failing kernel, the tiles hold the Cholesky factor. -/
theorem pzpotrf_ok (hm : A.d.m = N) (hn : A.d.n = N) (s : Store (M × Nat × Nat) 𝕜)
    (hz : ∀ i, tcode (pzpotrf pk info dv u A) s i = 0) :
    Chol N (lowE u (A.el s)) (lowE u (A.el (texec (tasks (pzpotrf pk info dv u A)) s))) := by
  rw [pzpotrf_eq hA hm hn] at hz ⊢
  refine (pkSteps_inv hpk hdv hA s (le_refl _) (fun k hk => ?_)).chol ?_
  · exact steps_zero (t := fun k => corePotrf pk info u (tdim N b k) (pt u A (k, k)) (b * k))
      (R := fun k => (pkIdx (ceilDiv N b) k).map (pkTask dv u A b N k)) hz k hk
  · have := (lt_ceilDiv (m := N) (k := ceilDiv N b) hA.pos).not
    have h2 := this.mp (Nat.lt_irrefl _)
    omega

/-- The first failing kernel reports the first leading minor that is not positive
definite. -/
theorem pzpotrf_bad (hm : A.d.m = N) (hn : A.d.n = N) (s : Store (M × Nat × Nat) 𝕜) {i : Nat}
    (hi : tcode (pzpotrf pk info dv u A) s i ≠ 0)
    (hb : ∀ j < i, tcode (pzpotrf pk info dv u A) s j = 0) :
    ∃ q : Nat, tcode (pzpotrf pk info dv u A) s i = (q : Int) + 1 ∧ q < N ∧
      (∃ L, Chol q (lowE u (A.el s)) L) ∧ ¬ ∃ L, Chol (q + 1) (lowE u (A.el s)) L := by
  rw [pzpotrf_eq hA hm hn] at hi hb ⊢
  obtain ⟨k, hk, h1, h2⟩ := steps_first
    (t := fun k => corePotrf pk info u (tdim N b k) (pt u A (k, k)) (b * k))
    (R := fun k => (pkIdx (ceilDiv N b) k).map (pkTask dv u A b N k)) hi hb
  have hinv := pkSteps_inv (u := u) hpk hdv hA s (le_of_lt hk) h2
  rw [show ((List.range (ceilDiv N b)).flatMap fun k =>
    corePotrf pk info u (tdim N b k) (pt u A (k, k)) (b * k) ::
      okT ((pkIdx (ceilDiv N b) k).map (pkTask dv u A b N k))) =
    (List.range (ceilDiv N b)).flatMap (pkStep pk info dv u A b N) from rfl] at h1
  rw [← h1] at hi ⊢
  change (corePotrf pk info u (tdim N b k) (pt u A (k, k)) (b * k)).code
    (texec (tasks ((List.range k).flatMap (pkStep pk info dv u A b N))) s) ≠ 0 at hi
  change ∃ q : Nat, (corePotrf pk info u (tdim N b k) (pt u A (k, k)) (b * k)).code
    (texec (tasks ((List.range k).flatMap (pkStep pk info dv u A b N))) s) = _ ∧ _
  set F := texec (tasks ((List.range k).flatMap (pkStep pk info dv u A b N))) s
  simp only [corePotrf] at hi ⊢
  have hne : info u (tdim N b k) (F (pt u A (k, k))) ≠ 0 := by
    intro h0; simp [h0] at hi
  obtain ⟨j, hj⟩ := Nat.exists_eq_succ_of_ne_zero hne
  obtain ⟨g1, g2, g3⟩ := hpk.bad u _ _ j hj
  have hkN : k * b + j < N := by rw [tdim_row] at g1; exact g1.2
  have hjb : j < b := lt_of_lt_of_le g1 tdim_le
  have hcg : ∀ n, n ≤ b → ((∃ L, Chol n (lowE u (F (pt u A (k, k)))) L) ↔
      ∃ L, Chol n (fun i j => lowE u (A.el F) (k * b + i) (k * b + j)) L) := by
    intro n hn
    constructor <;> rintro ⟨L, hL⟩ <;> refine ⟨L, hL.congr ?_ (fun _ _ _ _ => rfl)⟩ <;> intro r c hc hr
    · rw [lowE_el hA _ (by omega) (by omega)]
    · rw [lowE_el hA _ (by omega) (by omega)]
  refine ⟨k * b + j, ?_, hkN, ?_, ?_⟩
  · rw [if_pos hne, hj]; push_cast; ring
  · rw [hcg j (by omega), hinv.glue (by omega)] at g2; exact g2
  · rw [hcg (j + 1) (by omega), hinv.glue (by omega)] at g3
    rw [Nat.add_assoc]; exact g3

end all

/-! ### Footprints, codes, dependences -/

theorem pkTask_writes {k : Nat} {p : Nat × Nat} (_ : k ≤ p.2) (hp : p.2 ≤ p.1) (hp1 : k < p.1) :
    WritesE (fun t i j => t = pt u A p ∧ i < b ∧ j < b ∧
      inTri u ((if u = .lower then p.1 else p.2) * b + i) ((if u = .lower then p.2 else p.1) * b + j))
      [pkTask dv u A b N k p] := by
  have key : ∀ x y i j, x < y → i < b → j < b → x * b + i ≤ y * b + j := by
    intro x y i j h hi hj
    have : (x + 1) * b ≤ y * b := Nat.mul_le_mul_right _ h
    rw [Nat.add_mul] at this; omega
  have off : p.2 < p.1 → ∀ i j, i < pr u (tdim N b p.1) b → j < pr u b (tdim N b p.1) → i < b ∧ j < b ∧
      inTri u ((if u = .lower then p.1 else p.2) * b + i) ((if u = .lower then p.2 else p.1) * b + j) := by
    intro hlt i j hi hj
    have h1 : i < b := lt_of_lt_of_le hi (by unfold pr; split <;> [exact tdim_le; exact le_refl _])
    have h2 : j < b := lt_of_lt_of_le hj (by unfold pr; split <;> [exact le_refl _; exact tdim_le])
    refine ⟨h1, h2, ?_⟩
    cases u
    · simp only [reduceCtorEq, if_false, inTri]; exact key _ _ _ _ hlt h1 h2
    · simp only [if_true, inTri]; exact key _ _ _ _ hlt h2 h1
  apply WritesE.single
  unfold pkTask
  by_cases h1 : p.2 = k
  · rw [if_pos h1]
    rintro x i j ⟨rfl, hij⟩
    exact ⟨rfl, off (by omega) i j hij.1 hij.2⟩
  · rw [if_neg h1]
    by_cases h2 : p.2 = p.1
    · rw [if_pos h2]
      rintro x i j ⟨rfl, hij⟩
      refine ⟨rfl, lt_of_lt_of_le hij.1 tdim_le, lt_of_lt_of_le hij.2.1 tdim_le, ?_⟩
      rw [h2]; simp only [ite_self]
      exact inTri_diag hij.2.2
    · rw [if_neg h2]
      rintro x i j ⟨rfl, hij⟩
      exact ⟨rfl, off (by omega) i j hij.1 hij.2⟩

/-- Only elements of the selected triangle are written. -/
theorem pzpotrf_frame (hA : A.Al b) (hm : A.d.m = N) (hn : A.d.n = N) (s : Store (M × Nat × Nat) 𝕜)
    {r c : Nat} (h : ¬ inTri u r c) :
    A.el (texec (tasks (pzpotrf pk info dv u A)) s) r c = A.el s r c := by
  have hb := hA.pos
  rw [pzpotrf_eq hA hm hn, tasks_flatMap]
  simp only [TMat.el, hA.mb, hA.nb]
  refine WritesE.frame (W := fun t i j => ∃ p : Nat × Nat, t = pt u A p ∧ i < b ∧ j < b ∧
    inTri u ((if u = .lower then p.1 else p.2) * b + i) ((if u = .lower then p.2 else p.1) * b + j))
    ?_ s ?_
  · refine WritesE.flatMap fun k hk => ?_
    unfold pkStep
    rw [tasks_cons, tasks_okT]
    refine WritesE.cons (WritesE.single ?_) (WritesE.map fun p hp => ?_)
    · rintro x i j ⟨rfl, hij⟩
      refine ⟨(k, k), rfl, lt_of_lt_of_le hij.1 tdim_le, lt_of_lt_of_le hij.2.1 tdim_le, ?_⟩
      simp only [ite_self]
      exact inTri_diag hij.2.2
    · rw [mem_pkIdx] at hp
      intro t ht x i j hx
      exact ⟨p, pkTask_writes (by omega) (by omega) (by omega) t ht x i j hx⟩
  · rintro ⟨p, h1, _, _, h4⟩
    apply h
    unfold pt at h1
    cases u
    · simp only [reduceCtorEq, if_false] at h1 h4
      rw [TMat.at'_inj] at h1
      rwa [← h1.1, ← h1.2, divmod, divmod] at h4
    · simp only [if_true] at h1 h4
      rw [TMat.at'_inj] at h1
      rwa [← h1.1, ← h1.2, divmod, divmod] at h4

theorem pzpotrf_writes (hA : A.Al b) (hm : A.d.m = N) (hn : A.d.n = N) :
    Writes (fun t => t.1 = A.id) (tasks (pzpotrf pk info dv u A)) := by
  have hid : ∀ p, (pt u A p).1 = A.id := by intro p; unfold pt; split <;> rfl
  rw [pzpotrf_eq hA hm hn, tasks_flatMap]
  refine Writes.flatMap fun k _ => ?_
  rw [tasks_pkStep]
  exact Writes.flatMap fun p _ => Writes.mono (pkBody_writes k p) (fun x hx => by rw [hx, hid])

theorem pzpotrf_codeOK (hpk : IsPotrf pk info) (hA : A.Al b) (hm : A.d.m = N) (hn : A.d.n = N) :
    CodeOK (pzpotrf pk info dv u A) := by
  rw [pzpotrf_eq hA hm hn]
  refine CodeOK.flatMap fun k _ => CodeOK.cons ⟨?_, ?_⟩ (CodeOK.ok _)
  · intro t ht s s' hs
    rw [List.mem_singleton] at ht
    subst ht
    simp only [corePotrf]
    rw [(hpk.loc u _ (s (pt u A (k, k))) (s' (pt u A (k, k))) fun i j hij => hs _ _ _ (Or.inr ⟨rfl, hij⟩)).1]
  · intro t ht hg
    rw [List.mem_singleton] at ht
    subst ht; simp [corePotrf] at hg

theorem pzpotrf_good {env : M → MatEnv} (hpk : IsPotrf pk info) (hA : FitsOn env b (inTri u) A)
    (hm : A.d.m = N) (hn : A.d.n = N) :
    Good (evalid env) (tasks (pzpotrf pk info dv u A)) := by
  have hb := hA.al.pos
  have hv : ∀ m n i j, n ≤ m → i < tdim N b m → j < tdim N b n →
      (u = .lower → evalid env (pt u A (m, n)) i j) ∧ (u = .upper → evalid env (pt u A (m, n)) j i) := by
    intro m n i j hnm hi hj
    constructor <;> rintro rfl <;> simp only [pt, reduceCtorEq, if_false, if_true]
    · exact hA.validOn hnm (by rw [hm]; exact hi) (by rw [hn]; exact hj)
    · exact hA.validOn hnm (by rw [hm]; exact hj) (by rw [hn]; exact hi)
  have hvd : ∀ m i j, i < tdim N b m → j < tdim N b m → evalid env (pt u A (m, m)) i j := by
    intro m i j hi hj
    cases u
    · exact (hv m m j i (le_refl _) hj hi).2 rfl
    · exact (hv m m i j (le_refl _) hi hj).1 rfl
  rw [pzpotrf_eq hA.al hm hn, tasks_flatMap]
  refine Good.flatMap fun k hk => ?_
  rw [List.mem_range] at hk
  unfold pkStep
  rw [tasks_cons, tasks_okT]
  refine Good.cons ?_ (Good.map fun p hp => ?_)
  · exact Good.single (op0_local fun C C' h => (hpk.loc u _ C C' h).2) op0_declared
      (op0_inside fun i j hij => hvd k i j hij.1 hij.2.1)
  · rw [mem_pkIdx] at hp
    obtain ⟨m, n⟩ := p
    simp only at hp
    have hbk : tdim N b k = b := tdim_full hb rfl (by omega)
    have hoff : ∀ n, n ≤ m → tdim N b n = b → ∀ i j, Tile.box (pr u (tdim N b m) b) (pr u b (tdim N b m)) i j →
        evalid env (pt u A (m, n)) i j := by
      intro n hnm hbn i j hij
      cases u
      · exact (hv m n j i hnm (by simpa [pr] using hij.2) (by simpa [pr, hbn] using hij.1)).2 rfl
      · exact (hv m n i j hnm (by simpa [pr] using hij.1) (by simpa [pr, hbn] using hij.2)).1 rfl
    unfold pkTask
    by_cases h1 : n = k
    · rw [if_pos h1]
      subst h1
      refine Good.single coreTrsm_local op1_declared (op1_inside ?_ (hoff n (by omega) hbk))
      rintro i j ⟨hi, hj, -⟩
      have hi' : i < b := by cases u <;> simpa [pside, pr] using hi
      have hj' : j < b := by cases u <;> simpa [pside, pr] using hj
      exact hvd n i j (by omega) (by omega)
    · rw [if_neg h1]
      by_cases h2 : n = m
      · rw [if_pos h2]
        subst h2
        refine Good.single coreRk_local op1_declared (op1_inside ?_ fun i j hij => hvd n i j hij.1 hij.2.1)
        intro i j hij
        apply hoff k (by omega) hbk
        cases u <;> simpa [pr, ptr1] using hij
      · rw [if_neg h2]
        have hbn : tdim N b n = b := tdim_full hb rfl (by omega)
        have hfull : ∀ i j, Tile.box b b i j → evalid env (pt u A (n, k)) i j := by
          intro i j hij
          cases u
          · exact (hv n k j i (by omega) (by rw [hbn]; exact hij.2) (by rw [hbk]; exact hij.1)).2 rfl
          · exact (hv n k i j (by omega) (by rw [hbn]; exact hij.1) (by rw [hbk]; exact hij.2)).1 rfl
        have hmk := hoff k (by omega) hbk
        refine gemm_single_good ?_ ?_ (hoff n (by omega) hbn)
        · cases u
          · simpa [ptr1, pr] using hfull
          · simpa [ptr1, pr] using hmk
        · cases u
          · simpa [ptr2, pr] using hmk
          · simpa [ptr2, pr] using hfull

theorem FTip.through {M' : Type u} {α : Type v} {P : List (GTTask M' α)} {a a' : M'} (h : FTip P a)
    {Q : List (TTask M' α)} {t : TTask M' α} {m : Bool} (ht : t ∈ Q) (h1 : (a, m) ∈ t.deps)
    (h2 : (a', true) ∈ t.deps) : FTip (P ++ okT Q) a' := by
  obtain ⟨Q1, Q2, rfl⟩ := List.append_of_mem ht
  rw [show okT (Q1 ++ t :: Q2) = okT Q1 ++ ([{ task := t }] ++ okT Q2) by simp [okT],
    ← List.append_assoc, ← List.append_assoc]
  exact ((h.append (safe_ok Q1)).move h1 h2).append (safe_ok Q2)

/-- The diagonal factorizations form a chain of dependences. -/
theorem pkSteps_chain {K : Nat} (hK : K ≤ ceilDiv N b) :
    FChain ((List.range K).flatMap (pkStep pk info dv u A b N)) ∧
    (K < ceilDiv N b → FTip ((List.range K).flatMap (pkStep pk info dv u A b N)) (pt u A (K, K))) := by
  induction K with
  | zero => exact ⟨FChain.nil, fun _ => FTip.nil _⟩
  | succ K ih =>
    obtain ⟨hc, ht⟩ := ih (by omega)
    have ht := ht (by omega)
    have hd : (pt u A (K, K), true) ∈
        (corePotrf pk info u (tdim N b K) (pt u A (K, K)) (b * K)).task.deps := by
      simp [corePotrf, op0]
    rw [List.range_succ, List.flatMap_append, List.flatMap_singleton]
    unfold pkStep
    rw [← List.singleton_append, ← List.append_assoc]
    refine ⟨(hc.snoc ht hd).append (safe_ok _), fun hlt => ?_⟩
    have h1 := ht.move hd hd
    rw [pkIdx, List.map_append, okT_append, ← List.append_assoc]
    refine (h1.through (t := pkTask dv u A b N K (K+1, K)) (m := false) (a' := pt u A (K+1, K)) ?_ ?_ ?_).through
      (t := pkTask dv u A b N K (K+1, K+1)) (m := false) ?_ ?_ ?_
    · refine List.mem_map.mpr ⟨(K+1, K), List.mem_map.mpr ⟨K+1, ?_, rfl⟩, rfl⟩
      rw [mem_span]; omega
    · simp [pkTask, coreTrsm, op1]
    · simp [pkTask, coreTrsm, op1]
    · refine List.mem_map.mpr ⟨(K+1, K+1), List.mem_flatMap.mpr ⟨K+1, ?_, List.mem_cons_self ..⟩, rfl⟩
      rw [mem_span]; omega
    · simp [pkTask, coreRk, op1]
    · simp [pkTask, coreRk, op1]

theorem pzpotrf_chain (hA : A.Al b) (hm : A.d.m = N) (hn : A.d.n = N) :
    FChain (pzpotrf pk info dv u A) := by
  rw [pzpotrf_eq hA hm hn]
  exact (pkSteps_chain (le_refl _)).1

end Verif.Tile

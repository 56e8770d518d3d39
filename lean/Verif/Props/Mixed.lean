/-
Properties of the mixed-precision solvers `plasma_zcgesv` and `plasma_zcposv`: C44, C45.
-/
import Verif.Refine
import Verif.Props.LuSolve
import Verif.Props.Posv
import Verif.Symm

set_option linter.unusedSectionVars false

namespace Verif.Props

open Verif.Layout Verif.Tile Verif.LU Verif.Panel Verif.Norm Finset

universe v w

section
variable {M : Type} [DecidableEq M] {𝕜 : Type v} [RCLike 𝕜] [DecidableEq 𝕜] {γ : Type w} [LinearOrder γ]

/-- The matrices of a solver: `A` is square, `B`, `X` and `R` have the shape of the right-hand sides; all are
different. -/
structure MixMat (b n nrhs : Nat) (A B X R : TMat M) : Prop where
  a : A.Al b
  b' : B.Al b
  x : X.Al b
  r : R.Al b
  n0 : 0 < n
  am : A.d.m = n
  an : A.d.n = n
  bm : B.d.m = n
  bn : B.d.n = nrhs
  xm : X.d.m = n
  xn : X.d.n = nrhs
  rm : R.d.m = n
  rn : R.d.n = nrhs
  nd : [A.id, B.id, X.id, R.id].Nodup

/-- The single-precision part leaves `A` and `B` alone, and `X` as well after the first solution. -/
structure LowFrame (A B X : TMat M) (low : LowP M 𝕜) : Prop where
  first : ∀ s y, y.1 = A.id ∨ y.1 = B.id → (low.first s).1 y = s y
  next : ∀ s y, y.1 = A.id ∨ y.1 = B.id ∨ y.1 = X.id → (low.next s).1 y = s y

/-! ### zcgesv -/

/-- `plasma_omp_zcgesv` (compute/zcgesv.c:352-532).  `plasma_pzlange` is replaced by the value it stores
(`C26_lange`). -/
noncomputable def gesvMix (low : LowP M 𝕜) (eps : ℝ) (rg : Bool) (E : IntCode 𝕜) (mag : 𝕜 → γ) (dv : 𝕜 → 𝕜 → 𝕜)
    (big : 𝕜 → Bool) (ib mpt : Nat) (A B X R P : TMat M) : Mix M 𝕜 where
  A := A
  B := B
  X := X
  R := R
  low := low
  norm := fun s => maxTo (fun i => ∑ j ∈ range A.d.n, ‖A.el s i j‖) A.d.m
  resT := pzgemm .noTrans .noTrans (-1) A X 1 R
  hp := pzgetrf rg E mag dv big ib mpt A P ++ (okT (pzlacpy none .noTrans B X) ++
    (rawT (pzgeswp rg E true true X P) ++
      (okT (pztrsm dv .left .lower .noTrans .unit 1 A X) ++ okT (pztrsm dv .left .upper .noTrans .nonUnit 1 A X))))
  eps := eps

variable {low : LowP M 𝕜} {eps : ℝ} {rg : Bool} {E : IntCode 𝕜} {mag : 𝕜 → γ} {dv : 𝕜 → 𝕜 → 𝕜} {big : 𝕜 → Bool}
  {ib mpt : Nat} {A B X R P : TMat M} {b n nrhs : Nat}

/-- Codes of the first part of a program. -/
theorem tcode_left {P Q : List (GTTask (M × Nat × Nat) 𝕜)} {s : Store (M × Nat × Nat) 𝕜}
    (h : ∀ i, tcode (P ++ Q) s i = 0) (i : Nat) : tcode P s i = 0 := by
  by_cases hi : i < P.length
  · rw [← tcode_append_left P Q s hi]; exact h i
  · exact tcode_len _ _ (by omega)

theorem tcode_right {P Q : List (GTTask (M × Nat × Nat) 𝕜)} {s : Store (M × Nat × Nat) 𝕜}
    (h : ∀ i, tcode (P ++ Q) s i = 0) (i : Nat) : tcode Q (texec (tasks P) s) i = 0 := by
  rw [← tcode_append_right]; exact h _

theorem gesvMix_ok (hdv : IsDiv dv) (hmag : IsMag mag) (h : MixMat b n nrhs A B X R) (hlu : LuOK b A P ib mpt)
    (hP : P.id ∉ [A.id, B.id, X.id, R.id]) (hlow : LowFrame A B X low) :
    MixOK b (gesvMix low eps rg E mag dv big ib mpt A B X R P) id n nrhs := by
  obtain ⟨n1, n2, n3⟩ : (A.id ≠ B.id ∧ A.id ≠ X.id ∧ A.id ≠ R.id) ∧ (B.id ≠ X.id ∧ B.id ≠ R.id) ∧ X.id ≠ R.id := by
    simpa using h.nd
  obtain ⟨p1, p2, p3, p4⟩ : P.id ≠ A.id ∧ P.id ≠ B.id ∧ P.id ≠ X.id ∧ P.id ≠ R.id := by simpa using hP
  have hsh : GemmShape .noTrans .noTrans n A X R :=
    ⟨by rw [if_pos rfl, h.am, h.rm], by rw [if_pos rfl, h.an], by rw [if_pos rfl, h.xm], by rw [if_pos rfl, h.xn, h.rn]⟩
  refine ⟨h.a, h.b', h.x, h.r, h.n0, h.an, h.bm, h.bn, h.xm, h.xn, h.rm, h.rn, n1.1, n1.2.1, n1.2.2, n2.1, n2.2, n3,
    hlow.first, hlow.next, ?_, ?_, pzgemm_writes h.a hsh, ?_⟩
  · intro s
    have := maxTo_greatest (f := fun i => ∑ j ∈ range A.d.n, ‖A.el s i j‖) (by rw [h.am]; exact h.n0 : 0 < A.d.m)
    rw [h.am, h.an] at this
    show IsGreatest _ (maxTo (fun i => ∑ j ∈ range A.d.n, ‖A.el s i j‖) A.d.m)
    rw [h.am, h.an]
    exact this
  · intro s i j hi hj
    have := pzgemm_el (alpha := (-1 : 𝕜)) (beta := 1) h.a h.x h.r hsh n1.2.2 n3 s (r := i) (c := j)
      (by rw [h.rm]; exact hi) (by rw [h.rn]; exact hj)
    show R.el _ i j = _
    refine Eq.trans this ?_
    simp only [opE, one_mul, neg_mul, id]
    rw [sub_eq_add_neg]
    rfl
  · intro s hc i j hi hj
    simp only [gesvMix] at hc ⊢
    rw [tasks_append, texec_append, tasks_append, texec_append, tasks_okT]
    have hd := pzgetrf_ok hdv hmag hlu rg s (tcode_left hc)
    have hfr1 : ∀ y : M × Nat × Nat, ¬ (y.1 = A.id ∨ y.1 = P.id) →
        texec (tasks (pzgetrf rg E mag dv big ib mpt A P)) s y = s y := fun y hy => (pzgetrf_writes rg).frame s hy
    set s1 := texec (tasks (pzgetrf rg E mag dv big ib mpt A P)) s with hs1
    have hfr2 : ∀ y : M × Nat × Nat, y.1 ≠ X.id → texec (pzlacpy none .noTrans B X) s1 y = s1 y :=
      fun y hy => (pzlacpy_writes h.b').frame s1 hy
    have hX2 : ∀ r c, r < n → c < nrhs → X.el (texec (pzlacpy none .noTrans B X) s1) r c = B.el s r c := by
      intro r c hr hc
      have := pzlacpy_el (sel := none) (t := .noTrans) h.b' h.x n2.1 (by rw [if_pos rfl, h.xm, h.bm])
        (by rw [if_pos rfl, h.xn, h.bn]) (Or.inl rfl) s1 (by rw [h.xm]; exact hr) (by rw [h.xn]; exact hc)
      rw [this, if_pos (show stOK (stTr .noTrans none) r c from trivial)]
      show B.el s1 r c = _
      exact congrFun (congrFun (el_frame fun y hy => hfr1 y (by
        rw [hy]; rintro (e | e); exacts [n1.1 e.symm, p2 e.symm])) r) c
    set s2 := texec (pzlacpy none .noTrans B X) s1 with hs2
    have hA2 : A.el s2 = A.el s1 := el_frame fun y hy => hfr2 y (by rw [hy]; exact n1.2.1)
    have hP2 : P.el s2 = P.el s1 := el_frame fun y hy => hfr2 y (by rw [hy]; exact p3)
    have hpv : pv E P s2 = pv E P s1 := by funext i; unfold pv; rw [hP2]
    have hmin : min A.d.m A.d.n = n := by rw [h.am, h.an, Nat.min_self]
    have hrng : ∀ i, i < n → 1 ≤ E.dec (P.el s1 i 0) ∧ i ≤ pv E P s1 i ∧ pv E P s1 i < n := by
      have := hd.rng
      rw [hmin, h.am] at this
      exact this
    have key := getrsL_el (b := b) (E := E) (dv := dv) (A := A) (P := P) (B := X) hdv h.a h.x n1.2.1 p3 rg .noTrans s2
      (fun i hi => by
        rw [h.xm] at hi ⊢
        rw [hP2]
        have := hrng i hi
        unfold pv at this
        omega)
      (fun i hi => by
        rw [h.xm] at hi
        rw [hA2]
        exact hd.dia i (by rw [hmin]; exact hi))
      (A0 := A.el s) (fun r c hr hc => by
        rw [h.xm] at hr hc ⊢
        have hlt : perm (pv E P s1) 0 n r < n := perm_lt (le_refl _) (fun i hi => (hrng i hi).2.2) hr
        have := hd.lu r c (by rw [h.am]; exact hr) (by rw [h.an]; exact hc)
        rw [hmin] at this
        rw [hpv, hA2, this, luE_prod (A.el s1) (m := n) (n := n) hr hc, Nat.min_self])
      (r := i) (c := j) (by rw [h.xm]; exact hi) (by rw [h.xn]; exact hj)
    rw [h.xm, hX2 i j hi hj] at key
    have e : tasks (rawT (pzgeswp rg E true true X P) ++ (okT (pztrsm dv .left .lower .noTrans .unit 1 A X) ++
        okT (pztrsm dv .left .upper .noTrans .nonUnit 1 A X))) = getrsL rg E dv .noTrans A P X := by
      unfold getrsL
      simp [tasks_append, tasks_okT]
    rw [e]
    exact key

/-! ### zcposv -/

/-- The real part as a scalar. -/
noncomputable def reS (z : 𝕜) : 𝕜 := ((RCLike.re z : ℝ) : 𝕜)

/-- `plasma_omp_zcposv` (compute/zcposv.c:366-539).  `plasma_pzlanhe` is replaced by the value it stores
(`C27_lansy`). -/
noncomputable def posvMix (low : LowP M 𝕜) (eps : ℝ) (pk : Uplo → Nat → Tl 𝕜 → Tl 𝕜) (info : Uplo → Nat → Tl 𝕜 → Nat)
    (dv : 𝕜 → 𝕜 → 𝕜) (u : Uplo) (A B X R : TMat M) : Mix M 𝕜 where
  A := A
  B := B
  X := X
  R := R
  low := low
  norm := fun s => maxTo (fun i => ∑ j ∈ range A.d.n, ‖herE u (A.el s) i j‖) A.d.m
  resT := pzsymm true reS .left u (-1) A X 1 R
  hp := pzpotrf pk info dv u A ++ okT (pzlacpy none .noTrans B X ++ poSolve dv u A X)
  eps := eps

theorem symE_herE (u : Uplo) (F : Nat → Nat → 𝕜) (i j : Nat) : Tile.symE true reS u F i j = herE u F i j := by
  unfold Tile.symE herE
  by_cases h : i = j
  · subst h
    rw [if_pos rfl, if_pos rfl]
    simp [dre, reS]
  · rw [if_neg h, if_neg h]
    cases u <;> by_cases h2 : inTri .upper i j <;> by_cases h3 : inTri .lower i j <;> simp_all [inTri, cj]

theorem posvMix_ok {pk : Uplo → Nat → Tl 𝕜 → Tl 𝕜} {info : Uplo → Nat → Tl 𝕜 → Nat} (hpk : IsPotrf pk info)
    (hdv : IsDiv dv) (u : Uplo) (h : MixMat b n nrhs A B X R) (hlow : LowFrame A B X low) :
    MixOK b (posvMix low eps pk info dv u A B X R) (herE u) n nrhs := by
  obtain ⟨n1, n2, n3⟩ : (A.id ≠ B.id ∧ A.id ≠ X.id ∧ A.id ≠ R.id) ∧ (B.id ≠ X.id ∧ B.id ≠ R.id) ∧ X.id ≠ R.id := by
    simpa using h.nd
  refine ⟨h.a, h.b', h.x, h.r, h.n0, h.an, h.bm, h.bn, h.xm, h.xn, h.rm, h.rn, n1.1, n1.2.1, n1.2.2, n2.1, n2.2, n3,
    hlow.first, hlow.next, ?_, ?_, pzsymm_writes h.r rfl rfl, ?_⟩
  · intro s
    have := maxTo_greatest (f := fun i => ∑ j ∈ range n, ‖herE u (A.el s) i j‖) h.n0
    show IsGreatest _ (maxTo (fun i => ∑ j ∈ range A.d.n, ‖herE u (A.el s) i j‖) A.d.m)
    rw [h.am, h.an]
    exact this
  · intro s i j hi hj
    have := pzsymm_el (h := true) (re := reS) (sd := .left) (u := u) (alpha := (-1 : 𝕜)) (beta := 1) h.a h.x h.r h.rm h.rn
      n1.2.2 n3 s hi hj
    show R.el _ i j = _
    refine Eq.trans this ?_
    simp only [symmProd, symOrd, if_true, symE_herE, one_mul, neg_mul]
    rw [sub_eq_add_neg]
    rfl
  · intro s hc i j hi hj
    simp only [posvMix] at hc ⊢
    rw [tasks_append, tasks_okT, texec_append, texec_append]
    have hd := pzpotrf_ok (u := u) hpk hdv h.a h.am h.an s (tcode_left hc)
    have hfr1 : ∀ y : M × Nat × Nat, y.1 ≠ A.id → texec (tasks (pzpotrf pk info dv u A)) s y = s y :=
      fun y hy => (pzpotrf_writes h.a h.am h.an).frame s hy
    set s1 := texec (tasks (pzpotrf pk info dv u A)) s with hs1
    have hfr2 : ∀ y : M × Nat × Nat, y.1 ≠ X.id → texec (pzlacpy none .noTrans B X) s1 y = s1 y :=
      fun y hy => (pzlacpy_writes h.b').frame s1 hy
    have hX2 : ∀ r c, r < n → c < nrhs → X.el (texec (pzlacpy none .noTrans B X) s1) r c = B.el s r c := by
      intro r c hr hc
      have := pzlacpy_el (sel := none) (t := .noTrans) h.b' h.x n2.1 (by rw [if_pos rfl, h.xm, h.bm])
        (by rw [if_pos rfl, h.xn, h.bn]) (Or.inl rfl) s1 (by rw [h.xm]; exact hr) (by rw [h.xn]; exact hc)
      rw [this, if_pos (show stOK (stTr .noTrans none) r c from trivial)]
      show B.el s1 r c = _
      exact congrFun (congrFun (el_frame fun y hy => hfr1 y (by rw [hy]; exact n1.1.symm)) r) c
    set s2 := texec (pzlacpy none .noTrans B X) s1 with hs2
    have hA2 : A.el s2 = A.el s1 := el_frame fun y hy => hfr2 y (by rw [hy]; exact n1.2.1)
    have hdg : ∀ i, i < n → A.el s1 i i ≠ 0 := by
      intro i hi h0
      have := (hd.pos i hi).2
      unfold lowE at this
      rw [h0] at this
      cases u <;> simp at this
    have key := poSolve_el (u := u) hdv h.a h.x n1.2.1 h.xm h.xn s2 (fun i hi => by
      rw [hA2]
      exact hdg i hi) hi hj
    rw [hX2 i j hi hj] at key
    rw [← key]
    refine sum_congr rfl fun l hl => ?_
    rw [mem_range] at hl
    rw [hA2, chol_prod hd hi hl]

/-! ### C44 -/

/-- What C44 says about a run.  `A0`, `B0` are the matrix and the right-hand sides, `tol` the bound of the test,
`X0` the first single-precision solution, `corr R` a correction computed in single precision for the residual `R`,
`iter` the number reported and `Y` the solution returned: there are iterates `Z 0, …, Z k` of which `Z 0` is `X0` and
each other one is the one before plus a correction for its residual; those before the last are rejected by
the test; either `k ≤ 30`, the last one is accepted, returned, and `iter = k`, or `k = 30`, the last one is rejected
as well, `iter = -31` and the solution returned solves the system. -/
def Refined (n nrhs : Nat) (tol : ℝ) (A0 B0 X0 : Nat → Nat → 𝕜) (corr : (Nat → Nat → 𝕜) → (Nat → Nat → 𝕜) → Prop)
    (iter : Int) (Y : Nat → Nat → 𝕜) : Prop :=
  ∃ (k : Nat) (Z : Nat → Nat → Nat → 𝕜),
    (∀ i j, i < n → j < nrhs → Z 0 i j = X0 i j) ∧
    (∀ m, m < k → ∃ D Q : Nat → Nat → 𝕜, corr Q D ∧
      (∀ i j, i < n → j < nrhs → Q i j = B0 i j - ∑ l ∈ range n, A0 i l * Z m l j) ∧
      ∀ i j, i < n → j < nrhs → Z (m + 1) i j = Z m i j + D i j) ∧
    (∀ m, m < k → ¬ Accept n nrhs tol A0 B0 (Z m)) ∧
    ((k ≤ 30 ∧ iter = k ∧ Accept n nrhs tol A0 B0 (Z k) ∧ ∀ i j, i < n → j < nrhs → Y i j = Z k i j) ∨
      (k = 30 ∧ iter = -31 ∧ ¬ Accept n nrhs tol A0 B0 (Z 30) ∧
        ∀ i j, i < n → j < nrhs → ∑ l ∈ range n, A0 i l * Y l j = B0 i j))

theorem mix_refined {q : Mix M 𝕜} {F : (Nat → Nat → 𝕜) → Nat → Nat → 𝕜} (h : MixOK b q F n nrhs) (he : 0 ≤ q.eps)
    {p : RSt M 𝕜} {pX : Nat → Nat → 𝕜} {N : ℝ}
    (hN : IsGreatest {v : ℝ | ∃ i, i < n ∧ v = ∑ j ∈ range n, ‖F (q.A.el p.s) i j‖} N)
    (h0 : (q.run p).1.status = 0) :
    (q.low.first p.s).2 = 0 ∧
    Refined n nrhs (N * q.eps * Real.sqrt n) (F (q.A.el p.s)) (q.B.el p.s) (q.X.el (q.low.first p.s).1)
      (fun Q D => ∃ s, q.R.el s = Q ∧ (q.low.next s).2 = 0 ∧ q.R.el (q.low.next s).1 = D)
      (q.run p).2 (q.out (q.run p).1 pX) := by
  have hcte : q.cte p = N * q.eps * Real.sqrt n := by
    unfold Mix.cte
    rw [h.an, (h.norm p.s).unique hN]
  obtain ⟨k, h1, h2, h3⟩ := run_spec h he h0
  rw [hcte] at h2 h3
  have h00 : (q.first p).status = 0 := iter_status q p (Nat.zero_le k) h1
  refine ⟨(first_spec h h00).1, k, fun j => q.X.el (q.iter p j).s, ?_, ?_, h2, ?_⟩
  · intro i j _ _
    exact congrFun (congrFun (first_spec h h00).2.2 i) j
  · intro m hm
    have hI := iter_spec h m (iter_status q p hm.le h1)
    obtain ⟨-, e1, -, e2⟩ := next_spec h hI (iter_status q p hm h1)
    exact ⟨_, _, ⟨_, rfl, e1, rfl⟩, hI.r, e2⟩
  · unfold Mix.out
    rw [if_pos h0]
    rcases h3 with ⟨a1, a2, a3, a4⟩ | ⟨a1, a2, a3, a4⟩
    · exact Or.inl ⟨a1, a2, a4, fun i j _ _ => by rw [a3]⟩
    · exact Or.inr ⟨a1, a2, a3, a4⟩

/-- **C44, zcgesv.** Let the single-precision part be arbitrary except that it leaves `A`, `B` (and `X` during
refinement) alone.  If `plasma_zcgesv` reports success, then `iter` is the number of refinement steps after which the
test was satisfied for the first time, at most 30, and the solution returned satisfies it; or `iter` is -31, the test
failed 31 times, and the solution returned solves the system exactly (in exact arithmetic).
Missing for the full property: the tasks between two taskwaits are executed in program order here. -/
theorem C44_zcgesv_partial (hdv : IsDiv dv) (hmag : IsMag mag) (h : MixMat b n nrhs A B X R) (hlu : LuOK b A P ib mpt)
    (hP : P.id ∉ [A.id, B.id, X.id, R.id]) (hlow : LowFrame A B X low) (he : 0 ≤ eps) (p : RSt M 𝕜)
    (pX : Nat → Nat → 𝕜) (N : ℝ)
    (hN : IsGreatest {v : ℝ | ∃ i, i < n ∧ v = ∑ j ∈ range n, ‖A.el p.s i j‖} N)
    (h0 : ((gesvMix low eps rg E mag dv big ib mpt A B X R P).run p).1.status = 0) :
    (low.first p.s).2 = 0 ∧
    Refined n nrhs (N * eps * Real.sqrt n) (A.el p.s) (B.el p.s) (X.el (low.first p.s).1)
      (fun Q D => ∃ s, R.el s = Q ∧ (low.next s).2 = 0 ∧ R.el (low.next s).1 = D)
      ((gesvMix low eps rg E mag dv big ib mpt A B X R P).run p).2
      ((gesvMix low eps rg E mag dv big ib mpt A B X R P).out
        ((gesvMix low eps rg E mag dv big ib mpt A B X R P).run p).1 pX) :=
  mix_refined (gesvMix_ok hdv hmag h hlu hP hlow) he hN h0

/-- **C44, zcposv.** The same for `plasma_zcposv` and the Hermitian matrix given by the triangle `u` of `A`. -/
theorem C44_zcposv_partial {pk : Uplo → Nat → Tl 𝕜 → Tl 𝕜} {info : Uplo → Nat → Tl 𝕜 → Nat} (hpk : IsPotrf pk info)
    (hdv : IsDiv dv) (u : Uplo) (h : MixMat b n nrhs A B X R) (hlow : LowFrame A B X low) (he : 0 ≤ eps)
    (p : RSt M 𝕜) (pX : Nat → Nat → 𝕜) (N : ℝ)
    (hN : IsGreatest {v : ℝ | ∃ i, i < n ∧ v = ∑ j ∈ range n, ‖herE u (A.el p.s) i j‖} N)
    (h0 : ((posvMix low eps pk info dv u A B X R).run p).1.status = 0) :
    (low.first p.s).2 = 0 ∧
    Refined n nrhs (N * eps * Real.sqrt n) (herE u (A.el p.s)) (B.el p.s) (X.el (low.first p.s).1)
      (fun Q D => ∃ s, R.el s = Q ∧ (low.next s).2 = 0 ∧ R.el (low.next s).1 = D)
      ((posvMix low eps pk info dv u A B X R).run p).2
      ((posvMix low eps pk info dv u A B X R).out ((posvMix low eps pk info dv u A B X R).run p).1 pX) :=
  mix_refined (posvMix_ok hpk hdv u h hlow) he hN h0

/-! ### C45 -/

/-- **C45, refuted.** Whenever the single-precision conversion, factorization or solve of the first solution fails,
`plasma_zcgesv` and `plasma_zcposv` report an error and do not write the solution: there is no attempt in double
precision, because every later task tests the status of the same sequence. -/
theorem C45_refuted (q : Mix M 𝕜) (p : RSt M 𝕜) (pX : Nat → Nat → 𝕜) (h : (q.low.first p.s).2 ≠ 0) :
    (q.run p).1.status ≠ 0 ∧ q.out (q.run p).1 pX = pX := by
  have := run_fail q h
  refine ⟨this, ?_⟩
  unfold Mix.out
  rw [if_neg this]

/-- `plasma_core_omp_zlag2c` (core_blas/core_zlag2c.c:59-79): the code is 1 if an element overflows.  `rho` is
rounding to single precision, `ov` tells whether the number is out of range. -/
noncomputable def lag2cT (rho : 𝕜 → 𝕜) (ov : 𝕜 → Prop) (m n : Nat) (a c : M × Nat × Nat) : GTTask (M × Nat × Nat) 𝕜 where
  task := op1 a (box m n) c (box m n) fun x _ i j => rho (x i j)
  code := fun s => by classical exact if ∃ i j, box m n i j ∧ ov (s a i j) then 1 else 0

/-- `plasma_pzlag2c` (compute/pzlag2c.c:53-67). -/
noncomputable def pzlag2c (rho : 𝕜 → 𝕜) (ov : 𝕜 → Prop) (A As : TMat M) : List (GTTask (M × Nat × Nat) 𝕜) :=
  (List.range A.d.mt).flatMap fun m => (List.range A.d.nt).map fun n =>
    lag2cT rho ov (A.d.mview m) (A.d.nview n) (A.at' m n) (As.at' m n)

/-- The solve with the factors of `As` (compute/zcgesv.c:440-446, 478-484). -/
def lowSolve (rg : Bool) (E : IntCode 𝕜) (dv : 𝕜 → 𝕜 → 𝕜) (As Xs P : TMat M) : List (GTTask (M × Nat × Nat) 𝕜) :=
  rawT (pzgeswp rg E true true Xs P) ++
    (okT (pztrsm dv .left .lower .noTrans .unit 1 As Xs) ++ okT (pztrsm dv .left .upper .noTrans .nonUnit 1 As Xs))

/-- The single-precision part of `plasma_omp_zcgesv` (compute/zcgesv.c:428-449, 474-487) with exact arithmetic on the
rounded matrices; single-precision numbers are a subset of the scalars. -/
noncomputable def luLow (rho : 𝕜 → 𝕜) (ov : 𝕜 → Prop) (rg : Bool) (E : IntCode 𝕜) (mag : 𝕜 → γ) (dv : 𝕜 → 𝕜 → 𝕜)
    (big : 𝕜 → Bool) (ib mpt : Nat) (A B X R P As Xs : TMat M) : LowP M 𝕜 where
  first := fun s => gseq (pzlag2c rho ov B Xs ++ (pzlag2c rho ov A As ++ (pzgetrf rg E mag dv big ib mpt As P ++
    (lowSolve rg E dv As Xs P ++ okT (pzlacpy none .noTrans Xs X))))) (s, 0)
  next := fun s => gseq (pzlag2c rho ov R Xs ++ (lowSolve rg E dv As Xs P ++ okT (pzlacpy none .noTrans Xs R))) (s, 0)

variable {rho : 𝕜 → 𝕜} {ov : 𝕜 → Prop} {As Xs : TMat M}

theorem pzlag2c_writes : Writes (fun y => y.1 = As.id) (tasks (pzlag2c rho ov A As)) := by
  unfold pzlag2c
  rw [tasks_flatMap]
  refine Writes.flatMap fun m _ => ?_
  unfold tasks
  rw [List.map_map]
  refine Writes.map fun n _ => ?_
  simp only [Function.comp, lag2cT]
  exact writes_op1 rfl

theorem lowSolve_writes (hX : Xs.Al b) : Writes (fun y => y.1 = Xs.id) (tasks (lowSolve rg E dv As Xs P)) := by
  unfold lowSolve
  rw [tasks_append, tasks_append, tasks_okT, tasks_okT, tasks_rawT]
  exact pzgeswp_writes.append ((pztrsm_writes hX rfl rfl).append (pztrsm_writes hX rfl rfl))

theorem luLow_frame (hX : Xs.Al b) (hd : [A.id, B.id, X.id, R.id, P.id, As.id, Xs.id].Nodup) :
    LowFrame A B X (luLow rho ov rg E mag dv big ib mpt A B X R P As Xs) := by
  simp only [List.nodup_cons, List.mem_cons, List.not_mem_nil, not_or, or_false, not_false_eq_true, and_true,
    List.nodup_nil] at hd
  constructor
  · intro s y hy
    refine gseq_frame (D := fun y => y.1 = Xs.id ∨ y.1 = As.id ∨ y.1 = P.id ∨ y.1 = X.id) _ ?_ (s, 0) ?_
    · simp only [tasks_append, tasks_okT]
      refine (pzlag2c_writes.mono fun y hy => Or.inl hy).append ((pzlag2c_writes.mono fun y hy => Or.inr (Or.inl hy)).append
        (((pzgetrf_writes rg).mono fun y hy => ?_).append (((lowSolve_writes hX).mono fun y hy => Or.inl hy).append
          ((pzlacpy_writes hX).mono fun y hy => Or.inr (Or.inr (Or.inr hy))))))
      rcases hy with hy | hy
      · exact Or.inr (Or.inl hy)
      · exact Or.inr (Or.inr (Or.inl hy))
    · rcases hy with hy | hy <;> rw [hy] <;> tauto
  · intro s y hy
    refine gseq_frame (D := fun y => y.1 = Xs.id ∨ y.1 = R.id) _ ?_ (s, 0) ?_
    · simp only [tasks_append, tasks_okT]
      exact (pzlag2c_writes.mono fun y hy => Or.inl hy).append (((lowSolve_writes hX).mono fun y hy => Or.inl hy).append
          ((pzlacpy_writes hX).mono fun y hy => Or.inr hy))
    · rcases hy with hy | hy | hy <;> rw [hy] <;> tauto

theorem pzlag2c_el (hA : A.Al b) (hAs : As.Al b) (hne : A.id ≠ As.id) (hm : As.d.m = A.d.m) (hn : As.d.n = A.d.n)
    (s : Store (M × Nat × Nat) 𝕜) {r c : Nat} (hr : r < A.d.m) (hc : c < A.d.n) :
    As.el (texec (tasks (pzlag2c rho ov A As)) s) r c = rho (A.el s r c) := by
  have hb := hA.pos
  have e : tasks (pzlag2c rho ov A As) = (rowIdx none As.d.mt As.d.nt).map fun p =>
      op1 (A.at' p.1 p.2) (box (A.d.mview p.1) (A.d.nview p.2)) (As.at' p.1 p.2) (box (A.d.mview p.1) (A.d.nview p.2))
        fun x _ i j => rho (x i j) := by
    unfold pzlag2c rowIdx
    rw [tasks_flatMap, hAs.mt_eq, hAs.nt_eq, hm, hn, ← hA.mt_eq, ← hA.nt_eq]
    simp [tasks, List.map_flatMap, Function.comp_def, lag2cT]
  rw [e]
  have := nest_el (task := fun p => op1 (A.at' p.1 p.2) (box (A.d.mview p.1) (A.d.nview p.2)) (As.at' p.1 p.2)
      (box (A.d.mview p.1) (A.d.nview p.2)) fun x _ i j => rho (x i j)) hAs (rowIdx_sel none _ _) (R := fun x => x = A.id)
    (fun h => hne h.symm) (fun p => writes_op1 rfl)
    (fun p => Within.op1 (op1_local fun a a' _ _ h _ i j hij => by rw [h i j hij]) (Or.inl rfl) (Or.inr rfl)) s
    (r := r) (c := c) (by rw [hm]; exact hr) (by rw [hn]; exact hc) (v := rho (A.el s r c)) ?_
  · rw [this, if_pos (show stOK none r c from trivial)]
  · intro _
    rw [if_pos (show r / b = c / b → stOK none (r % b) (c % b) from fun _ => trivial), op1_self]
    rw [paste_in ⟨by rw [hA.mview (hA.row_mt hr)]; exact mod_lt_tdim hb hr, by
      rw [hA.nview (hA.col_nt hc)]; exact mod_lt_tdim hb hc⟩]
    simp only [TMat.el, hA.mb, hA.nb]

/-- **C45, refuted (underflow).** If rounding to single precision makes `A` vanish, `plasma_zcgesv` reports an error
and leaves the solution unwritten, whether or not `A` is singular. -/
theorem C45_refuted_underflow (hdv : IsDiv dv) (hmag : IsMag mag) (h : MixMat b n nrhs A B X R)
    (hAs : LuOK b As P ib mpt) (hAm : As.d.m = n) (hAn : As.d.n = n)
    (hd : [A.id, B.id, X.id, R.id, P.id, As.id, Xs.id].Nodup) (p : RSt M 𝕜) (pX : Nat → Nat → 𝕜)
    (hz : ∀ i j, i < n → j < n → rho (A.el p.s i j) = 0) (eps : ℝ) :
    let q := gesvMix (luLow rho ov rg E mag dv big ib mpt A B X R P As Xs) eps rg E mag dv big ib mpt A B X R P
    (q.run p).1.status ≠ 0 ∧ q.out (q.run p).1 pX = pX := by
  refine C45_refuted _ p pX ?_
  intro hc
  simp only [List.nodup_cons, List.mem_cons, List.not_mem_nil, not_or, or_false, not_false_eq_true, and_true,
    List.nodup_nil] at hd
  obtain ⟨h1, -⟩ := gseq_ok _ _ hc
  have h2 := tcode_left (tcode_right (tcode_right h1))
  set s1 := texec (tasks (pzlag2c rho ov B Xs)) p.s with hs1
  set s2 := texec (tasks (pzlag2c rho ov A As)) s1 with hs2
  have hA1 : A.el s1 = A.el p.s := el_frame fun y hy => pzlag2c_writes.frame p.s (by rw [hy]; tauto)
  have hlu := pzgetrf_ok hdv hmag hAs rg s2 h2
  have hmin : min As.d.m As.d.n = n := by rw [hAm, hAn, Nat.min_self]
  set s3 := texec (tasks (pzgetrf rg E mag dv big ib mpt As P)) s2 with hs3
  have hr := hlu.rng
  have e0 := hlu.lu 0 0 (by rw [hAm]; exact h.n0) (by rw [hAn]; exact h.n0)
  have hd0 := hlu.dia 0 (by rw [hmin]; exact h.n0)
  rw [hmin] at e0 hr
  have hlt : perm (pv E P s3) 0 n 0 < n := perm_lt (le_refl _) (fun i hi => by
    have := (hr i hi).2.2; rwa [hAm] at this) h.n0
  rw [hs2, pzlag2c_el h.a hAs.a (by tauto) (by rw [hAm, h.am]) (by rw [hAn, h.an]) s1 (by rw [h.am]; exact hlt)
    (by rw [h.an]; exact h.n0), hA1, hz _ _ hlt h.n0] at e0
  simp [luE] at e0
  exact hd0 e0.symm

/-- **C45, refuted (overflow).** If an element of `A` is out of the range of single precision, `plasma_zcgesv` reports
an error and leaves the solution unwritten. -/
theorem C45_refuted_overflow (h : MixMat b n nrhs A B X R)
    (hd : [A.id, B.id, X.id, R.id, P.id, As.id, Xs.id].Nodup) (p : RSt M 𝕜) (pX : Nat → Nat → 𝕜) {i j : Nat}
    (hi : i < n) (hj : j < n) (hov : ov (A.el p.s i j)) (eps : ℝ) :
    let q := gesvMix (luLow rho ov rg E mag dv big ib mpt A B X R P As Xs) eps rg E mag dv big ib mpt A B X R P
    (q.run p).1.status ≠ 0 ∧ q.out (q.run p).1 pX = pX := by
  refine C45_refuted _ p pX ?_
  intro hc
  simp only [List.nodup_cons, List.mem_cons, List.not_mem_nil, not_or, or_false, not_false_eq_true, and_true,
    List.nodup_nil] at hd
  obtain ⟨h1, -⟩ := gseq_ok _ _ hc
  have h2 := tcode_left (tcode_right h1)
  set s1 := texec (tasks (pzlag2c rho ov B Xs)) p.s with hs1
  have hA1 : ∀ y : M × Nat × Nat, y.1 = A.id → s1 y = p.s y := fun y hy => pzlag2c_writes.frame p.s (by rw [hy]; tauto)
  have hb := h.a.pos
  have hmt := h.a.row_mt (show i < A.d.m by rw [h.am]; exact hi)
  have hnt := h.a.col_nt (show j < A.d.n by rw [h.an]; exact hj)
  have hmem : lag2cT rho ov (A.d.mview (i / b)) (A.d.nview (j / b)) (A.at' (i / b) (j / b)) (As.at' (i / b) (j / b)) ∈
      pzlag2c rho ov A As :=
    List.mem_flatMap.mpr ⟨_, List.mem_range.mpr hmt, List.mem_map.mpr ⟨_, List.mem_range.mpr hnt, rfl⟩⟩
  obtain ⟨L1, L2, hL⟩ := List.append_of_mem hmem
  have hw : Writes (fun y => y.1 = As.id) (tasks L1) := by
    have := pzlag2c_writes (rho := rho) (ov := ov) (A := A) (As := As)
    rw [hL, tasks_append] at this
    exact fun t ht => this t (List.mem_append_left _ ht)
  rw [hL] at h2
  have h3 := tcode_right h2 0
  rw [tcode_cons_zero] at h3
  simp only [lag2cT] at h3
  rw [if_pos] at h3
  · exact one_ne_zero h3
  · refine ⟨i % b, j % b, ⟨by rw [h.a.mview hmt]; exact mod_lt_tdim hb (by rw [h.am]; exact hi), by
      rw [h.a.nview hnt]; exact mod_lt_tdim hb (by rw [h.an]; exact hj)⟩, ?_⟩
    rw [hw.frame s1 (by simp only [TMat.at']; tauto), hA1 _ rfl]
    simpa only [TMat.el, h.a.mb, h.a.nb] using hov

end

/-! ### Concrete cases -/

section
variable {M : Type} [DecidableEq M] {𝕜 : Type v} [RCLike 𝕜] [DecidableEq 𝕜]

/-- A first solution that passes the test is returned. -/
theorem run_accept {b n nrhs : Nat} {q : Mix M 𝕜} {F : (Nat → Nat → 𝕜) → Nat → Nat → 𝕜} (h : MixOK b q F n nrhs)
    (he : 0 ≤ q.eps) {p : RSt M 𝕜} (hp : p.status = 0) (hl : (q.low.first p.s).2 = 0)
    (hx : ∀ i j, i < n → j < nrhs →
      ∑ l ∈ range n, F (q.A.el p.s) i l * q.X.el (q.low.first p.s).1 l j = q.B.el p.s i j) :
    (q.run p).1.status = 0 ∧ (q.run p).2 = 0 := by
  have h0 : (q.first p).status = 0 := by
    unfold Mix.first
    dsimp only
    rw [if_pos hl]
    exact (check_spec h _).1.trans hp
  have hI := (first_spec h h0).2
  have hc : convOK (q.first p).rn (q.first p).xn q.R.d.n (q.cte p) := by
    rw [conv_iff h hI.1 (cte_nonneg h he p), hI.2]
    intro j hj
    refine ⟨0, h.n0, fun i hi => ?_⟩
    rw [hx i j hi hj, sub_self]
    refine le_trans (le_of_eq (by simp [cabs1])) (mul_nonneg ?_ (cte_nonneg h he p))
    unfold cabs1
    positivity
  unfold Mix.run
  dsimp only
  rw [if_pos hc]
  exact ⟨h0, rfl⟩

end

/-- Tiles of size 1, two by two, two right-hand sides. -/
def mxA (k : Nat) : TMat Nat := .full k 1 2 2

/-- `A = [2 1; 1 3]`, `B = [5 0; 5 0]`, `X = [2 0; 1 0]`. -/
noncomputable def mxS : Store (Nat × Nat × Nat) ℝ := fun y _ _ =>
  if y.1 = 0 then (if y.2.1 = y.2.2 then (if y.2.1 = 0 then 2 else 3) else 1)
  else if y.1 = 1 then (if y.2.2 = 0 then 5 else 0)
  else if y.2.2 = 0 then (if y.2.1 = 0 then 2 else 1) else 0

theorem mxA_el (k : Nat) (s : Store (Nat × Nat × Nat) ℝ) (r c : Nat) : (mxA k).el s r c = s (k, r, c) 0 0 := by
  simp [TMat.el, mxA, TMat.full, TMat.at', general, Nat.mod_one]

theorem rmag_isMag : IsMag (fun x : ℝ => |x|) := ⟨fun x hx => by simpa using hx⟩

theorem mxMat : MixMat 1 2 2 (mxA 0) (mxA 1) (mxA 2) (mxA 3) :=
  ⟨TMat.al_full 0 one_pos 2 2, TMat.al_full 1 one_pos 2 2, TMat.al_full 2 one_pos 2 2, TMat.al_full 3 one_pos 2 2, by decide, rfl, rfl,
    rfl, rfl, rfl, rfl, rfl, rfl, by decide⟩

theorem mxLu (k : Nat) (hk : k ≠ 4) : LuOK 1 (mxA k) (.full 4 1 2 1) 1 1 :=
  ⟨TMat.al_full k one_pos 2 2, TMat.al_full 4 one_pos 2 1, hk, rfl, rfl, by decide, by decide⟩

noncomputable def realCode : IntCode ℝ := (exists_intCode ℝ (fun n => (n : ℝ)) Nat.cast_injective).some

/-- The hypotheses of `C44_zcgesv_partial` hold for a run with a solve that finds the solution at once. -/
example : LowFrame (𝕜 := ℝ) (mxA 0) (mxA 1) (mxA 2) ⟨fun s => (s, 0), fun s => (s, 0)⟩ ∧
    IsGreatest {v : ℝ | ∃ i, i < 2 ∧ v = ∑ j ∈ range 2, ‖(mxA 0).el mxS i j‖} 4 ∧
    ((gesvMix ⟨fun s => (s, 0), fun s => (s, 0)⟩ 1 true realCode (fun x : ℝ => |x|) rdv (fun _ => true)
      1 1 (mxA 0) (mxA 1) (mxA 2) (mxA 3) (.full 4 1 2 1)).run ⟨mxS, 0, fun _ => 0, fun _ => 0⟩).1.status = 0 := by
  have hl : LowFrame (𝕜 := ℝ) (mxA 0) (mxA 1) (mxA 2) ⟨fun s => (s, 0), fun s => (s, 0)⟩ :=
    ⟨fun _ _ _ => rfl, fun _ _ _ => rfl⟩
  refine ⟨hl, ⟨⟨1, by decide, ?_⟩, ?_⟩, ?_⟩
  · simp [Finset.sum_range_succ, mxA_el, mxS]
    norm_num
  · rintro v ⟨i, hi, rfl⟩
    interval_cases i <;> simp [Finset.sum_range_succ, mxA_el, mxS] <;> norm_num
  · have hok := (gesvMix_ok (eps := 1) (rg := true) (E := realCode) (big := fun _ => true) rdv_isDiv rmag_isMag mxMat
      (mxLu 0 (by decide)) (by decide) hl)
    refine (run_accept hok zero_le_one rfl rfl fun i j hi hj => ?_).1
    interval_cases i <;> interval_cases j <;>
      simp [gesvMix, Finset.sum_range_succ, mxA_el, mxS] <;> norm_num

/-- The same for `C44_zcposv_partial` and the lower triangle. -/
example {pk : Uplo → Nat → Tl ℝ → Tl ℝ} {info : Uplo → Nat → Tl ℝ → Nat} (hpk : IsPotrf pk info) :
    ((posvMix ⟨fun s => (s, 0), fun s => (s, 0)⟩ 1 pk info rdv .lower
      (mxA 0) (mxA 1) (mxA 2) (mxA 3)).run ⟨mxS, 0, fun _ => 0, fun _ => 0⟩).1.status = 0 := by
  have hl : LowFrame (𝕜 := ℝ) (mxA 0) (mxA 1) (mxA 2) ⟨fun s => (s, 0), fun s => (s, 0)⟩ :=
    ⟨fun _ _ _ => rfl, fun _ _ _ => rfl⟩
  have hok := posvMix_ok (eps := 1) hpk rdv_isDiv .lower mxMat hl
  refine (run_accept hok zero_le_one rfl rfl fun i j hi hj => ?_).1
  interval_cases i <;> interval_cases j <;>
    simp [posvMix, herE, Finset.sum_range_succ, mxA_el, mxS] <;> norm_num

open Classical in
/-- `C45_refuted_underflow`: numbers below `10` are rounded to 0 and above `100` are out of range (a coarse single
precision); the regular matrix `mxS` cannot be solved. -/
example :
    let q := gesvMix (luLow (fun x : ℝ => if |x| < 10 then 0 else x) (fun x => |x| > 100) true realCode
      (fun x : ℝ => |x|) rdv (fun _ => true) 1 1 (mxA 0) (mxA 1) (mxA 2) (mxA 3) (.full 4 1 2 1) (mxA 5)
      (mxA 6)) 1 true
      realCode (fun x : ℝ => |x|) rdv (fun _ => true) 1 1 (mxA 0) (mxA 1) (mxA 2)
      (mxA 3) (.full 4 1 2 1)
    (q.run ⟨mxS, 0, fun _ => 0, fun _ => 0⟩).1.status ≠ 0 := by
  refine (C45_refuted_underflow rdv_isDiv rmag_isMag mxMat
    (mxLu 5 (by decide)) rfl rfl (Xs := mxA 6) (by decide) ⟨mxS, 0, fun _ => 0, fun _ => 0⟩ (fun _ _ => 0) (fun i j hi hj => ?_) 1).1
  interval_cases i <;> interval_cases j <;>
    simp [mxA_el, mxS] <;> norm_num

/-- `C45_refuted_overflow`: numbers above 2 are out of range. -/
example :
    let q := gesvMix (luLow (fun x : ℝ => x) (fun x => |x| > 2) true realCode
      (fun x : ℝ => |x|) rdv (fun _ => true) 1 1 (mxA 0) (mxA 1) (mxA 2) (mxA 3) (.full 4 1 2 1) (mxA 5)
      (mxA 6)) 1 true
      realCode (fun x : ℝ => |x|) rdv (fun _ => true) 1 1 (mxA 0) (mxA 1) (mxA 2)
      (mxA 3) (.full 4 1 2 1)
    (q.run ⟨mxS, 0, fun _ => 0, fun _ => 0⟩).1.status ≠ 0 := by
  refine (C45_refuted_overflow (P := .full 4 1 2 1) (As := mxA 5) (Xs := mxA 6) mxMat (by decide) ⟨mxS, 0, fun _ => 0, fun _ => 0⟩ (fun _ _ => 0) (i := 1) (j := 1)
    (by decide) (by decide) ?_ 1).1
  simp [mxA_el, mxS]
  norm_num

end Verif.Props

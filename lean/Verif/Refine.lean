/-
Mixed-precision solvers with iterative refinement (compute/zcgesv.c, compute/zcposv.c): control flow of the
master thread between the `taskwait`s.
-/
import Verif.AuxNests
import Verif.GExec
import Verif.NormKern
import Mathlib.Analysis.Real.Sqrt

set_option linter.unusedSectionVars false

namespace Verif.Tile

open Verif.Layout Finset Verif.Norm

universe v

section
variable {M : Type} {α : Type v}

/-- Guarded tasks executed in program order with the status of the sequence: a task whose guard finds a failed
sequence does nothing, a failing kernel stores its code (control/async.c:17-25). -/
noncomputable def gseq : List (GTTask M α) → Store M α × Int → Store M α × Int
  | [], p => p
  | t :: P, p =>
    if t.guard = true ∧ p.2 ≠ 0 then gseq P p
    else gseq P (t.task.run p.1, if t.code p.1 = 0 then p.2 else t.code p.1)

theorem gseq_sticky (P : List (GTTask M α)) {p : Store M α × Int} (h : p.2 ≠ 0) : (gseq P p).2 ≠ 0 := by
  induction P generalizing p with
  | nil => exact h
  | cons t P ih =>
    unfold gseq
    split
    · exact ih h
    · refine ih ?_
      dsimp only
      split <;> assumption

theorem gseq_ok (P : List (GTTask M α)) (s : Store M α) (h : (gseq P (s, 0)).2 = 0) :
    (∀ i, tcode P s i = 0) ∧ (gseq P (s, 0)).1 = texec (tasks P) s := by
  induction P generalizing s with
  | nil => exact ⟨fun i => tcode_len _ _ (by simp), rfl⟩
  | cons t P ih =>
    unfold gseq at h ⊢
    rw [if_neg (by simp)] at h ⊢
    dsimp only at h ⊢
    have hc : t.code s = 0 := by
      by_contra hc
      rw [if_neg hc] at h
      exact gseq_sticky P (p := (t.task.run s, t.code s)) hc h
    rw [if_pos hc] at h ⊢
    obtain ⟨h1, h2⟩ := ih _ h
    refine ⟨fun i => ?_, ?_⟩
    · cases i with
      | zero => rw [tcode_cons_zero, hc]
      | succ i => rw [tcode_cons_succ, h1]
    · rw [h2]; simp [texec_cons]

theorem gseq_frame {D : M → Prop} (P : List (GTTask M α)) (hw : Writes D (tasks P)) (p : Store M α × Int) {x : M}
    (hx : ¬ D x) : (gseq P p).1 x = p.1 x := by
  induction P generalizing p with
  | nil => rfl
  | cons t P ih =>
    have hw' : Writes D (tasks P) := fun t' ht' => hw t' (List.mem_cons_of_mem _ ht')
    unfold gseq
    split
    · exact ih hw' p
    · rw [ih hw']
      have hw1 : Writes D [t.task] := by
        intro t' ht'
        rw [List.mem_singleton] at ht'
        subst ht'
        exact hw _ (List.mem_cons_self ..)
      have := hw1.frame p.1 hx
      simpa [texec_cons] using this

end

/-! ### Largest value of a list of numbers -/

/-- The largest of `f 0, …, f (m-1)` for `m > 0`. -/
noncomputable def maxTo (f : Nat → ℝ) : Nat → ℝ
  | 0 => f 0
  | m + 1 => max (maxTo f m) (f m)

theorem maxTo_greatest {f : Nat → ℝ} {m : Nat} (hm : 0 < m) : IsGreatest {x | ∃ r, r < m ∧ x = f r} (maxTo f m) := by
  induction m with
  | zero => omega
  | succ m ih =>
    rcases Nat.eq_zero_or_pos m with rfl | h
    · refine ⟨⟨0, by omega, by simp [maxTo]⟩, ?_⟩
      rintro x ⟨r, hr, rfl⟩
      have : r = 0 := by omega
      subst this
      simp [maxTo]
    · obtain ⟨⟨r, hr, e⟩, h2⟩ := ih h
      refine ⟨?_, ?_⟩
      · unfold maxTo
        rcases le_total (maxTo f m) (f m) with hle | hle
        · exact ⟨m, by omega, max_eq_right hle⟩
        · exact ⟨r, by omega, (max_eq_left hle).trans e⟩
      · rintro x ⟨q, hq, rfl⟩
        unfold maxTo
        rcases Nat.lt_or_ge q m with h3 | h3
        · exact le_trans (h2 ⟨q, h3, rfl⟩) (le_max_left _ _)
        · have : q = m := by omega
          subst this
          exact le_max_right _ _

/-! ### The solvers -/

section
variable {M : Type} [DecidableEq M] {𝕜 : Type v} [RCLike 𝕜] [DecidableEq 𝕜]

/-- The single-precision work, as arbitrary functions of the memory with a status.
`first` stands for compute/zcgesv.c:428-449 (zcposv.c:444-463): conversion of `A` and `B`, factorization, solve,
conversion of the solution to `X`.  `next` stands for lines 474-487 (487-498): conversion of `R`, solve, conversion of
the solution to `R`. -/
structure LowP (M : Type) (𝕜 : Type v) where
  first : Store (M × Nat × Nat) 𝕜 → Store (M × Nat × Nat) 𝕜 × Int
  next : Store (M × Nat × Nat) 𝕜 → Store (M × Nat × Nat) 𝕜 × Int

/-- What distinguishes the two solvers: matrices, single-precision part, norm of `A`, tasks of the update `R - A*X`,
tasks of the solve in double precision. -/
structure Mix (M : Type) (𝕜 : Type v) where
  A : TMat M
  B : TMat M
  X : TMat M
  R : TMat M
  low : LowP M 𝕜
  norm : Store (M × Nat × Nat) 𝕜 → ℝ
  resT : List (TTask (M × Nat × Nat) 𝕜)
  hp : List (GTTask (M × Nat × Nat) 𝕜)
  eps : ℝ

/-- Memory of the tile matrices, status of the sequence, arrays `Xnorm` and `Rnorm`. -/
structure RSt (M : Type) (𝕜 : Type v) where
  s : Store (M × Nat × Nat) 𝕜
  status : Int
  xn : Nat → ℝ
  rn : Nat → ℝ

/-- `conv` (compute/zcgesv.c:265-277, zcposv.c:275-288). -/
def convOK (rn xn : Nat → ℝ) (n : Nat) (cte : ℝ) : Prop := ∀ i, i < n → ¬ (rn i > xn i * cte)

/-- Residual and norms (compute/zcgesv.c:452-459, 491-498).  `plasma_pdzamax` is replaced by the values that it
stores (`C29_amax`); tasks are executed in program order. -/
noncomputable def Mix.check (q : Mix M 𝕜) (p : RSt M 𝕜) : RSt M 𝕜 :=
  let s := texec (pzlacpy none .noTrans q.B q.R ++ q.resT) p.s
  { s := s, status := p.status
    xn := fun c => maxTo (fun r => cabs1 (q.X.el s r c)) q.X.d.m
    rn := fun c => maxTo (fun r => cabs1 (q.R.el s r c)) q.R.d.m }

/-- First solution (compute/zcgesv.c:428-459).  After a failure all tasks are skipped. -/
noncomputable def Mix.first (q : Mix M 𝕜) (p : RSt M 𝕜) : RSt M 𝕜 :=
  let r := q.low.first p.s
  if r.2 = 0 then q.check { p with s := r.1 } else { p with s := r.1, status := r.2 }

/-- One refinement step (compute/zcgesv.c:473-498). -/
noncomputable def Mix.next (q : Mix M 𝕜) (p : RSt M 𝕜) : RSt M 𝕜 :=
  if p.status ≠ 0 then p else
  let r := q.low.next p.s
  if r.2 = 0 then q.check { p with s := texec (pzgeadd .noTrans 1 q.R 1 q.X) r.1 }
  else { p with s := r.1, status := r.2 }

open Classical in
/-- The loop (compute/zcgesv.c:472-507): state and, if it returned, the value of `iter`.  The first argument is the
number of iterations left, the second is `iiter`. -/
noncomputable def Mix.loop (q : Mix M 𝕜) (cte : ℝ) : Nat → Nat → RSt M 𝕜 → RSt M 𝕜 × Option Nat
  | 0, _, p => (p, none)
  | f + 1, i, p =>
    let p' := q.next p
    if convOK p'.rn p'.xn q.R.d.n cte then (p', some (i + 1)) else q.loop cte f (i + 1) p'

/-- `cte` (compute/zcgesv.c:463). -/
noncomputable def Mix.cte (q : Mix M 𝕜) (p : RSt M 𝕜) : ℝ := q.norm p.s * q.eps * Real.sqrt (q.A.d.n : ℝ)

open Classical in
/-- `plasma_omp_zcgesv` and `plasma_omp_zcposv` for valid arguments and `n, nrhs > 0` (compute/zcgesv.c:418-532,
zcposv.c:434-539): final state and `iter`. -/
noncomputable def Mix.run (q : Mix M 𝕜) (p : RSt M 𝕜) : RSt M 𝕜 × Int :=
  let p0 := q.first p
  if convOK p0.rn p0.xn q.R.d.n (q.cte p) then (p0, 0) else
  match q.loop (q.cte p) 30 0 p0 with
  | (p1, some k) => (p1, (k : Int))
  | (p1, none) =>
    let r := gseq q.hp (p1.s, p1.status)
    ({ p1 with s := r.1, status := r.2 }, -30 - 1)

/-- The array `pX` after the call: the conversion tasks (compute/zcgesv.c:243) are guarded. -/
noncomputable def Mix.out (q : Mix M 𝕜) (p : RSt M 𝕜) (pX : Nat → Nat → 𝕜) : Nat → Nat → 𝕜 :=
  if p.status = 0 then q.X.el p.s else pX

/-- The states after the first solution and after each refinement step. -/
noncomputable def Mix.iter (q : Mix M 𝕜) (p : RSt M 𝕜) : Nat → RSt M 𝕜
  | 0 => q.first p
  | k + 1 => q.next (q.iter p k)

open Classical in
theorem Mix.loop_spec (q : Mix M 𝕜) (cte : ℝ) (p : RSt M 𝕜) (f i : Nat) :
    (∃ k, i < k ∧ k ≤ i + f ∧ (∀ j, i < j → j < k → ¬ convOK (q.iter p j).rn (q.iter p j).xn q.R.d.n cte) ∧
      convOK (q.iter p k).rn (q.iter p k).xn q.R.d.n cte ∧ q.loop cte f i (q.iter p i) = (q.iter p k, some k)) ∨
    ((∀ j, i < j → j ≤ i + f → ¬ convOK (q.iter p j).rn (q.iter p j).xn q.R.d.n cte) ∧
      q.loop cte f i (q.iter p i) = (q.iter p (i + f), none)) := by
  induction f generalizing i with
  | zero => exact Or.inr ⟨fun j h1 h2 => by omega, rfl⟩
  | succ f ih =>
    unfold Mix.loop
    dsimp only
    change (∃ k, _ ∧ _ ∧ _ ∧ _ ∧ (if convOK (q.iter p (i + 1)).rn (q.iter p (i + 1)).xn q.R.d.n cte then
      (q.iter p (i + 1), some (i + 1)) else q.loop cte f (i + 1) (q.iter p (i + 1))) = _) ∨ _ ∧
      (if convOK (q.iter p (i + 1)).rn (q.iter p (i + 1)).xn q.R.d.n cte then
      (q.iter p (i + 1), some (i + 1)) else q.loop cte f (i + 1) (q.iter p (i + 1))) = _
    by_cases hc : convOK (q.iter p (i + 1)).rn (q.iter p (i + 1)).xn q.R.d.n cte
    · refine Or.inl ⟨i + 1, by omega, by omega, fun j h1 h2 => by omega, hc, ?_⟩
      rw [if_pos hc]
    · rw [if_neg hc]
      rcases ih (i + 1) with ⟨k, h1, h2, h3, h4, h5⟩ | ⟨h1, h2⟩
      · refine Or.inl ⟨k, by omega, by omega, fun j hj hk => ?_, h4, h5⟩
        rcases Nat.lt_or_ge (i + 1) j with h | h
        · exact h3 j h hk
        · have : j = i + 1 := by omega
          rw [this]; exact hc
      · refine Or.inr ⟨fun j hj hk => ?_, ?_⟩
        · rcases Nat.lt_or_ge (i + 1) j with h | h
          · exact h1 j h (by omega)
          · have : j = i + 1 := by omega
            rw [this]; exact hc
        · rw [h2, show i + 1 + f = i + (f + 1) by omega]

theorem Mix.next_sticky (q : Mix M 𝕜) {p : RSt M 𝕜} (h : p.status ≠ 0) : q.next p = p := by
  unfold Mix.next; rw [if_pos h]

theorem Mix.iter_sticky (q : Mix M 𝕜) (p : RSt M 𝕜) {i j : Nat} (hij : i ≤ j) (h : (q.iter p i).status ≠ 0) :
    q.iter p j = q.iter p i := by
  induction j with
  | zero => have : i = 0 := by omega
            rw [this]
  | succ j ih =>
    rcases Nat.lt_or_ge j i with h1 | h1
    · have : i = j + 1 := by omega
      rw [this]
    · show q.next (q.iter p j) = _
      rw [ih h1, q.next_sticky h]

/-- What the parts of a solver compute: `F` is the matrix described by the array of `A`. -/
structure MixOK (b : Nat) (q : Mix M 𝕜) (F : (Nat → Nat → 𝕜) → Nat → Nat → 𝕜) (n nrhs : Nat) : Prop where
  a : q.A.Al b
  b' : q.B.Al b
  x : q.X.Al b
  r : q.R.Al b
  n0 : 0 < n
  an : q.A.d.n = n
  bm : q.B.d.m = n
  bn : q.B.d.n = nrhs
  xm : q.X.d.m = n
  xn : q.X.d.n = nrhs
  rm : q.R.d.m = n
  rn : q.R.d.n = nrhs
  ab : q.A.id ≠ q.B.id
  ax : q.A.id ≠ q.X.id
  ar : q.A.id ≠ q.R.id
  bx : q.B.id ≠ q.X.id
  br : q.B.id ≠ q.R.id
  xr : q.X.id ≠ q.R.id
  first : ∀ s y, y.1 = q.A.id ∨ y.1 = q.B.id → (q.low.first s).1 y = s y
  next : ∀ s y, y.1 = q.A.id ∨ y.1 = q.B.id ∨ y.1 = q.X.id → (q.low.next s).1 y = s y
  norm : ∀ s, IsGreatest {v : ℝ | ∃ i, i < n ∧ v = ∑ j ∈ range n, ‖F (q.A.el s) i j‖} (q.norm s)
  res : ∀ s i j, i < n → j < nrhs → q.R.el (texec q.resT s) i j =
    q.R.el s i j - ∑ l ∈ range n, F (q.A.el s) i l * q.X.el s l j
  resW : Writes (fun y => y.1 = q.R.id) q.resT
  hp : ∀ s, (∀ i, tcode q.hp s i = 0) → ∀ i j, i < n → j < nrhs →
    ∑ l ∈ range n, F (q.A.el s) i l * q.X.el (texec (tasks q.hp) s) l j = q.B.el s i j

variable {b n nrhs : Nat} {q : Mix M 𝕜} {F : (Nat → Nat → 𝕜) → Nat → Nat → 𝕜}

theorem el_frame {C : TMat M} {s s' : Store (M × Nat × Nat) 𝕜} (h : ∀ y : M × Nat × Nat, y.1 = C.id → s' y = s y) :
    C.el s' = C.el s := by
  funext r c; simp only [TMat.el]; rw [h _ rfl]

/-- The test of the code, in terms of the iterate. -/
def Accept (n nrhs : Nat) (tol : ℝ) (A B X : Nat → Nat → 𝕜) : Prop :=
  ∀ j, j < nrhs → ∃ p, p < n ∧ ∀ i, i < n →
    cabs1 (B i j - ∑ l ∈ range n, A i l * X l j) ≤ cabs1 (X p j) * tol

theorem check_spec (h : MixOK b q F n nrhs) (p : RSt M 𝕜) :
    (q.check p).status = p.status ∧ q.A.el (q.check p).s = q.A.el p.s ∧ q.B.el (q.check p).s = q.B.el p.s ∧
    q.X.el (q.check p).s = q.X.el p.s ∧
    (∀ i j, i < n → j < nrhs → q.R.el (q.check p).s i j =
      q.B.el p.s i j - ∑ l ∈ range n, F (q.A.el p.s) i l * q.X.el p.s l j) ∧
    (∀ c, (q.check p).xn c = maxTo (fun r => cabs1 (q.X.el (q.check p).s r c)) n) ∧
    (∀ c, (q.check p).rn c = maxTo (fun r => cabs1 (q.R.el (q.check p).s r c)) n) := by
  have hw1 : Writes (fun y => y.1 = q.R.id) (pzlacpy (α := 𝕜) none .noTrans q.B q.R) := pzlacpy_writes h.b'
  have hfr : ∀ y : M × Nat × Nat, y.1 ≠ q.R.id →
      texec (pzlacpy none .noTrans q.B q.R) p.s y = p.s y := fun y hy => hw1.frame p.s hy
  have hfr2 : ∀ y : M × Nat × Nat, y.1 ≠ q.R.id → (q.check p).s y = p.s y := fun y hy =>
    (hw1.append h.resW).frame p.s hy
  refine ⟨rfl, el_frame fun y hy => hfr2 y (by rw [hy]; exact h.ar), el_frame fun y hy => hfr2 y (by rw [hy]; exact h.br),
    el_frame fun y hy => hfr2 y (by rw [hy]; exact h.xr), ?_, ?_, ?_⟩
  · intro i j hi hj
    unfold Mix.check
    dsimp only
    rw [texec_append, h.res _ i j hi hj]
    rw [el_frame (C := q.A) fun y hy => hfr y (by rw [hy]; exact h.ar),
      el_frame (C := q.X) fun y hy => hfr y (by rw [hy]; exact h.xr)]
    have := pzlacpy_el (sel := none) (t := .noTrans) h.b' h.r h.br (by rw [if_pos rfl, h.rm, h.bm])
      (by rw [if_pos rfl, h.rn, h.bn]) (Or.inl rfl) p.s (by rw [h.rm]; exact hi) (by rw [h.rn]; exact hj)
    rw [this, if_pos (show stOK (stTr .noTrans none) i j from trivial)]
    rfl
  · intro c; unfold Mix.check; dsimp only; rw [h.xm]
  · intro c; unfold Mix.check; dsimp only; rw [h.rm]

/-- What holds after `k` steps without failure. -/
structure IterOK (q : Mix M 𝕜) (F : (Nat → Nat → 𝕜) → Nat → Nat → 𝕜) (n nrhs : Nat) (s0 : Store (M × Nat × Nat) 𝕜)
    (p : RSt M 𝕜) : Prop where
  a : q.A.el p.s = q.A.el s0
  b : q.B.el p.s = q.B.el s0
  r : ∀ i j, i < n → j < nrhs → q.R.el p.s i j =
    q.B.el s0 i j - ∑ l ∈ range n, F (q.A.el s0) i l * q.X.el p.s l j
  xn : ∀ c, p.xn c = maxTo (fun r => cabs1 (q.X.el p.s r c)) n
  rn : ∀ c, p.rn c = maxTo (fun r => cabs1 (q.R.el p.s r c)) n

theorem iterOK_check (h : MixOK b q F n nrhs) {s0 : Store (M × Nat × Nat) 𝕜} {p : RSt M 𝕜}
    (ha : q.A.el p.s = q.A.el s0) (hb : q.B.el p.s = q.B.el s0) : IterOK q F n nrhs s0 (q.check p) := by
  obtain ⟨-, h2, h3, h4, h5, h6, h7⟩ := check_spec h p
  refine ⟨h2.trans ha, h3.trans hb, fun i j hi hj => ?_, h6, h7⟩
  rw [h5 i j hi hj, hb, ha, h4]

theorem first_spec (h : MixOK b q F n nrhs) {p : RSt M 𝕜} (h0 : (q.first p).status = 0) :
    (q.low.first p.s).2 = 0 ∧ IterOK q F n nrhs p.s (q.first p) ∧
      q.X.el (q.first p).s = q.X.el (q.low.first p.s).1 := by
  unfold Mix.first at h0 ⊢
  dsimp only at h0 ⊢
  by_cases hc : (q.low.first p.s).2 = 0
  · rw [if_pos hc] at h0 ⊢
    refine ⟨hc, iterOK_check h (el_frame fun y hy => h.first _ _ (Or.inl hy))
      (el_frame fun y hy => h.first _ _ (Or.inr hy)), ?_⟩
    exact (check_spec h _).2.2.2.1
  · rw [if_neg hc] at h0
    exact absurd h0 hc

theorem next_spec (h : MixOK b q F n nrhs) {s0 : Store (M × Nat × Nat) 𝕜} {p : RSt M 𝕜}
    (hI : IterOK q F n nrhs s0 p) (h0 : (q.next p).status = 0) :
    p.status = 0 ∧ (q.low.next p.s).2 = 0 ∧ IterOK q F n nrhs s0 (q.next p) ∧
    ∀ i j, i < n → j < nrhs → q.X.el (q.next p).s i j = q.X.el p.s i j + q.R.el (q.low.next p.s).1 i j := by
  have hs : p.status = 0 := by
    by_contra hc
    rw [q.next_sticky hc] at h0
    exact hc h0
  unfold Mix.next at h0 ⊢
  rw [if_neg (by simpa using hs)] at h0 ⊢
  dsimp only at h0 ⊢
  by_cases hc : (q.low.next p.s).2 = 0
  · rw [if_pos hc] at h0 ⊢
    set s1 := (q.low.next p.s).1 with hs1
    have hw : Writes (fun y => y.1 = q.X.id) (pzgeadd (α := 𝕜) .noTrans 1 q.R 1 q.X) := by
      rw [pzgeadd_eq h.x]; exact ad_writes
    have hfr : ∀ y : M × Nat × Nat, y.1 ≠ q.X.id → texec (pzgeadd .noTrans 1 q.R 1 q.X) s1 y = s1 y :=
      fun y hy => hw.frame s1 hy
    refine ⟨hs, hc, iterOK_check h ?_ ?_, ?_⟩
    · refine (el_frame fun y hy => ?_).trans hI.a
      exact (hfr y (by rw [hy]; exact h.ax)).trans (h.next _ _ (Or.inl hy))
    · refine (el_frame fun y hy => ?_).trans hI.b
      exact (hfr y (by rw [hy]; exact h.bx)).trans (h.next _ _ (Or.inr (Or.inl hy)))
    · intro i j hi hj
      rw [(check_spec h _).2.2.2.1]
      dsimp only
      rw [pzgeadd_eq h.x, ad_el h.r h.x h.xr.symm s1 (by rw [h.xm]; exact hi) (by rw [h.xn]; exact hj),
        if_pos (show stOK none i j from trivial), one_mul, one_mul]
      congr 1
      exact congrFun (congrFun (el_frame fun y hy => h.next _ _ (Or.inr (Or.inr hy))) i) j
  · rw [if_neg hc] at h0
    exact absurd h0 hc

theorem iter_status (q : Mix M 𝕜) (p : RSt M 𝕜) {i j : Nat} (hij : i ≤ j) (h : (q.iter p j).status = 0) :
    (q.iter p i).status = 0 := by
  by_contra hc
  rw [q.iter_sticky p hij hc] at h
  exact hc h

theorem iter_spec (h : MixOK b q F n nrhs) {p : RSt M 𝕜} (k : Nat)
    (h0 : (q.iter p k).status = 0) : IterOK q F n nrhs p.s (q.iter p k) := by
  induction k with
  | zero => exact (first_spec h h0).2.1
  | succ k ih => exact (next_spec h (ih (iter_status q p (Nat.le_succ k) h0)) h0).2.2.1

theorem conv_iff (h : MixOK b q F n nrhs) {s0 : Store (M × Nat × Nat) 𝕜} {p : RSt M 𝕜}
    (hI : IterOK q F n nrhs s0 p) {cte : ℝ} (hc : 0 ≤ cte) :
    convOK p.rn p.xn q.R.d.n cte ↔ Accept n nrhs cte (F (q.A.el s0)) (q.B.el s0) (q.X.el p.s) := by
  unfold convOK Accept
  rw [h.rn]
  refine forall_congr' fun j => imp_congr_right fun hj => ?_
  rw [hI.xn, hI.rn]
  obtain ⟨⟨p0, hp0, e1⟩, h2⟩ := maxTo_greatest (f := fun r => cabs1 (q.X.el p.s r j)) h.n0
  obtain ⟨⟨r0, hr0, e3⟩, h4⟩ := maxTo_greatest (f := fun r => cabs1 (q.R.el p.s r j)) h.n0
  constructor
  · intro hle
    refine ⟨p0, hp0, fun i hi => ?_⟩
    rw [← hI.r i j hi hj, ← e1]
    exact le_trans (h4 ⟨i, hi, rfl⟩) (not_lt.mp hle)
  · rintro ⟨p1, hp1, hall⟩
    refine not_lt.mpr ?_
    rw [e3]
    have := hall r0 hr0
    rw [← hI.r r0 j hr0 hj] at this
    exact this.trans (mul_le_mul_of_nonneg_right (h2 ⟨p1, hp1, rfl⟩) hc)

theorem cte_nonneg (h : MixOK b q F n nrhs) (he : 0 ≤ q.eps) (p : RSt M 𝕜) : 0 ≤ q.cte p := by
  unfold Mix.cte
  refine mul_nonneg (mul_nonneg ?_ he) (Real.sqrt_nonneg _)
  obtain ⟨⟨i, _, e⟩, -⟩ := h.norm p.s
  rw [e]
  exact Finset.sum_nonneg fun j _ => norm_nonneg _

/-- The outcome of a run that reports success. -/
theorem run_spec (h : MixOK b q F n nrhs) (he : 0 ≤ q.eps) {p : RSt M 𝕜}
    (h0 : (q.run p).1.status = 0) :
    ∃ k, (q.iter p k).status = 0 ∧
      (∀ j, j < k → ¬ Accept n nrhs (q.cte p) (F (q.A.el p.s)) (q.B.el p.s) (q.X.el (q.iter p j).s)) ∧
      ((k ≤ 30 ∧ (q.run p).2 = k ∧ (q.run p).1 = q.iter p k ∧
          Accept n nrhs (q.cte p) (F (q.A.el p.s)) (q.B.el p.s) (q.X.el (q.iter p k).s)) ∨
        (k = 30 ∧ (q.run p).2 = -31 ∧
          ¬ Accept n nrhs (q.cte p) (F (q.A.el p.s)) (q.B.el p.s) (q.X.el (q.iter p 30).s) ∧
          ∀ i j, i < n → j < nrhs →
            ∑ l ∈ range n, F (q.A.el p.s) i l * q.X.el (q.run p).1.s l j = q.B.el p.s i j)) := by
  have hcte := cte_nonneg h he p
  unfold Mix.run at h0 ⊢
  dsimp only at h0 ⊢
  by_cases hc : convOK (q.first p).rn (q.first p).xn q.R.d.n (q.cte p)
  · rw [if_pos hc] at h0 ⊢
    refine ⟨0, h0, fun j hj => by omega, Or.inl ⟨by omega, rfl, rfl, ?_⟩⟩
    exact (conv_iff h (iter_spec h 0 h0) hcte).mp hc
  · rw [if_neg hc] at h0 ⊢
    rcases q.loop_spec (q.cte p) p 30 0 with ⟨k, h1, h2, h3, h4, h5⟩ | ⟨h1, h2⟩
    · rw [show q.loop (q.cte p) 30 0 (q.first p) = (q.iter p k, some k) from h5] at h0 ⊢
      dsimp only at h0 ⊢
      refine ⟨k, h0, fun j hj ha => ?_, Or.inl ⟨by omega, rfl, rfl, ?_⟩⟩
      · have := (conv_iff h (iter_spec h j (iter_status q p hj.le h0)) hcte).mpr ha
        rcases Nat.eq_zero_or_pos j with rfl | hj0
        · exact hc this
        · exact h3 j hj0 hj this
      · exact (conv_iff h (iter_spec h k h0) hcte).mp h4
    · rw [show q.loop (q.cte p) 30 0 (q.first p) = (q.iter p (0 + 30), none) from h2] at h0 ⊢
      rw [Nat.zero_add] at h0 ⊢
      dsimp only at h0 ⊢
      have hs : (q.iter p 30).status = 0 := by
        by_contra hne
        exact gseq_sticky _ (p := ((q.iter p 30).s, (q.iter p 30).status)) hne h0
      have hno : ∀ j, j ≤ 30 → ¬ Accept n nrhs (q.cte p) (F (q.A.el p.s)) (q.B.el p.s) (q.X.el (q.iter p j).s) := by
        intro j hj ha
        have := (conv_iff h (iter_spec h j (iter_status q p hj hs)) hcte).mpr ha
        rcases Nat.eq_zero_or_pos j with rfl | hj0
        · exact hc this
        · exact h1 j hj0 (by omega) this
      refine ⟨30, hs, fun j hj => hno j hj.le, Or.inr ⟨rfl, rfl, hno 30 le_rfl, ?_⟩⟩
      rw [hs] at h0 ⊢
      obtain ⟨g1, g2⟩ := gseq_ok _ _ h0
      have hI := iter_spec h 30 hs
      intro i j hi hj
      rw [g2, ← hI.a, ← hI.b]
      exact h.hp _ g1 i j hi hj

/-- After a failure of the first single-precision solve nothing else happens. -/
theorem run_fail (q : Mix M 𝕜) {p : RSt M 𝕜} (h : (q.low.first p.s).2 ≠ 0) : (q.run p).1.status ≠ 0 := by
  have h0 : (q.first p).status ≠ 0 := by
    unfold Mix.first
    dsimp only
    rw [if_neg h]
    exact h
  have hk : ∀ k, (q.iter p k).status ≠ 0 := fun k => by rw [q.iter_sticky p (Nat.zero_le k) h0]; exact h0
  unfold Mix.run
  dsimp only
  split
  · exact h0
  · rcases q.loop_spec (q.cte p) p 30 0 with ⟨k, -, -, -, -, h5⟩ | ⟨-, h2⟩
    · rw [show q.loop (q.cte p) 30 0 (q.first p) = (q.iter p k, some k) from h5]
      exact hk k
    · rw [show q.loop (q.cte p) 30 0 (q.first p) = (q.iter p (0 + 30), none) from h2]
      exact gseq_sticky _ (p := ((q.iter p (0 + 30)).s, (q.iter p (0 + 30)).status)) (hk _)

end

end Verif.Tile

/-
Model of the row and column interchanges `core_zgeswp`, `pzgeswp`, and their effect.
-/
import Verif.Comb
import Verif.Guard
import Verif.GExec
import Verif.PanelRun

namespace Verif.Tile

open Verif.Layout Verif.LU Verif.Panel Finset

set_option linter.unusedSectionVars false

universe u v w

/-- Integers kept in the same memory as the numbers: a code and its inverse.  The pivot array is
an `int` array of the caller; only its integer contents are ever used. -/
structure IntCode (α : Type v) where
  enc : Nat → α
  dec : α → Nat
  dec_enc : ∀ n, dec (enc n) = n

/-- Over an infinite type there is such a code. -/
theorem exists_intCode (α : Type v) (f : Nat → α) (hf : Function.Injective f) : Nonempty (IntCode α) := by
  classical
  exact ⟨⟨f, Function.invFun f, Function.leftInverse_invFun hf⟩⟩

/-! ### Products of interchanges -/

/-- The interchanges `i ↔ p i` for `i` in the list, in this order. -/
def permL (l : List Nat) (p : Nat → Nat) : Equiv.Perm Nat := (l.map fun i => Equiv.swap i (p i)).prod

theorem interch_permL {α : Type v} (l : List Nat) (p : Nat → Nat) (X : Nat → Nat → α) (r c : Nat) :
    interch l p X r c = X (permL l p r) c := by
  unfold interch permL
  induction l generalizing X r with
  | nil => rfl
  | cons i l ih => simp only [List.foldl_cons, ih, List.map_cons, List.prod_cons, Equiv.Perm.mul_apply]

theorem permL_range' (p : Nat → Nat) (lo n : Nat) : permL (List.range' lo n) p = perm p lo n := by
  induction n with
  | zero => rfl
  | succ n ih =>
    rw [List.range'_concat, Nat.one_mul]
    unfold permL at ih ⊢
    rw [List.map_append, List.prod_append, ih]
    simp [perm]

/-- Interchanges in the opposite order undo the interchanges. -/
theorem permL_reverse (l : List Nat) (p : Nat → Nat) : permL l.reverse p = (permL l p)⁻¹ := by
  unfold permL
  rw [List.prod_inv_reverse, List.map_map, List.map_reverse]
  congr 2

theorem permL_congr {l : List Nat} {p q : Nat → Nat} (h : ∀ i ∈ l, p i = q i) : permL l p = permL l q := by
  unfold permL
  congr 1
  exact List.map_congr_left fun i hi => by rw [h i hi]

theorem swap_mem {lo m i j r : Nat} (hi : lo ≤ i ∧ i < m) (hj : lo ≤ j ∧ j < m) (hr : lo ≤ r ∧ r < m) :
    lo ≤ Equiv.swap i j r ∧ Equiv.swap i j r < m := by
  rw [Equiv.swap_apply_def]
  split
  · exact hj
  · split
    · exact hi
    · exact hr

theorem permL_mem {l : List Nat} {p : Nat → Nat} {lo m : Nat} (hl : ∀ i ∈ l, lo ≤ i ∧ i < m)
    (hp : ∀ i ∈ l, lo ≤ p i ∧ p i < m) {r : Nat} (hr : lo ≤ r ∧ r < m) :
    lo ≤ permL l p r ∧ permL l p r < m := by
  unfold permL
  induction l with
  | nil => exact hr
  | cons i l ih =>
    rw [List.map_cons, List.prod_cons, Equiv.Perm.mul_apply]
    exact swap_mem (hl i (by simp)) (hp i (by simp))
      (ih (fun j hj => hl j (by simp [hj])) (fun j hj => hp j (by simp [hj])))

theorem permL_fix {l : List Nat} {p : Nat → Nat} {lo m : Nat} (hl : ∀ i ∈ l, lo ≤ i ∧ i < m)
    (hp : ∀ i ∈ l, lo ≤ p i ∧ p i < m) {r : Nat} (hr : ¬ (lo ≤ r ∧ r < m)) : permL l p r = r := by
  unfold permL
  induction l with
  | nil => rfl
  | cons i l ih =>
    rw [List.map_cons, List.prod_cons, Equiv.Perm.mul_apply,
      ih (fun j hj => hl j (by simp [hj])) (fun j hj => hp j (by simp [hj]))]
    have h1 := hl i (by simp)
    have h2 := hp i (by simp)
    rw [Equiv.swap_apply_of_ne_of_ne] <;> omega

/-! ### The kernel -/

section
variable {M : Type u} {α : Type v}

/-- Row number `ipiv[i] - 1`; a value outside `[lo, m)` would be a memory error in C and is
replaced by `i` (the theorems assume or prove that the values are in range). -/
def pivAt (E : IntCode α) (P : TMat M) (lo m : Nat) (s : Store (M × Nat × Nat) α) (i : Nat) : Nat :=
  if lo ≤ E.dec (P.el s i 0) - 1 ∧ E.dec (P.el s i 0) - 1 < m then E.dec (P.el s i 0) - 1 else i

/-- The loop `for (m = k1-1; m <= k2-1; m++)`, or `for (m = k2-1; m >= k1-1; m--)`
(core_blas/core_zgeswp.c:29-58). -/
def swpOrd (fwd : Bool) (k1 k2 : Nat) : List Nat :=
  if fwd then List.range' (k1 - 1) (k2 - (k1 - 1)) else (List.range' (k1 - 1) (k2 - (k1 - 1))).reverse

/-- `plasma_core_zgeswp(PlasmaRowwise, view, k1, k2, ipiv, incx)` for `incx = ±1`
(core_blas/core_zgeswp.c:22-59), where the view has all rows and the columns `[c0,c1)` of `A`.
`lo` is a lower bound for the rows touched. -/
def swpRows (deps : List ((M × Nat × Nat) × Bool)) (E : IntCode α) (A P : TMat M) (lo c0 c1 : Nat)
    (fwd : Bool) (k1 k2 : Nat) : TTask (M × Nat × Nat) α :=
  gop deps (P.reg fun i j => i ∈ swpOrd fwd k1 k2 ∧ j = 0) A
    (fun r c => lo ≤ r ∧ r < A.d.m ∧ c0 ≤ c ∧ c < c1)
    (fun s => interch (swpOrd fwd k1 k2) (pivAt E P lo A.d.m s) (A.el s))

/-- `plasma_core_zgeswp(PlasmaColumnwise, view, k1, k2, ipiv, incx)` for `incx = ±1`
(core_blas/core_zgeswp.c:63-92), where the view has all columns and the rows `[r0,r1)` of `A`. -/
def swpCols (deps : List ((M × Nat × Nat) × Bool)) (E : IntCode α) (A P : TMat M) (r0 r1 : Nat)
    (fwd : Bool) (k1 k2 : Nat) : TTask (M × Nat × Nat) α :=
  gop deps (P.reg fun i j => i ∈ swpOrd fwd k1 k2 ∧ j = 0) A
    (fun r c => r0 ≤ r ∧ r < r1 ∧ c < A.d.n)
    (fun s r c => interch (swpOrd fwd k1 k2) (pivAt E P 0 A.d.n s) (fun x y => A.el s y x) c r)

theorem mem_swpOrd {fwd : Bool} {k1 k2 i : Nat} : i ∈ swpOrd fwd k1 k2 ↔ k1 - 1 ≤ i ∧ i < k2 := by
  unfold swpOrd
  cases fwd <;> simp [List.mem_range'_1] <;> omega

theorem pivAt_mem {E : IntCode α} {P : TMat M} {lo m : Nat} {s : Store (M × Nat × Nat) α} {i : Nat}
    (h : lo ≤ i ∧ i < m) : lo ≤ pivAt E P lo m s i ∧ pivAt E P lo m s i < m := by
  unfold pivAt; split
  · assumption
  · exact h

theorem pivAt_of {E : IntCode α} {P : TMat M} {lo m : Nat} {s : Store (M × Nat × Nat) α} {i : Nat}
    (h : lo ≤ E.dec (P.el s i 0) - 1 ∧ E.dec (P.el s i 0) - 1 < m) :
    pivAt E P lo m s i = E.dec (P.el s i 0) - 1 := by
  unfold pivAt; rw [if_pos h]

theorem pivAt_congr {E : IntCode α} {P : TMat M} {lo m : Nat} {s s' : Store (M × Nat × Nat) α} {i : Nat}
    (h : P.el s i 0 = P.el s' i 0) : pivAt E P lo m s i = pivAt E P lo m s' i := by
  unfold pivAt; rw [h]

variable {b : Nat} {E : IntCode α} {A P : TMat M}

theorem swpRows_local (hA : A.Al b) (hP : P.Al b) {deps : List ((M × Nat × Nat) × Bool)}
    {lo c0 c1 : Nat} {fwd : Bool} {k1 k2 : Nat} (h1 : lo ≤ k1 - 1) (h2 : k2 ≤ A.d.m) :
    (swpRows deps E A P lo c0 c1 fwd k1 k2).Local := by
  apply gop_local
  intro s s' hs r c hR
  rw [interch_permL, interch_permL]
  have hp : ∀ i ∈ swpOrd fwd k1 k2, pivAt E P lo A.d.m s i = pivAt E P lo A.d.m s' i := by
    intro i hi
    apply pivAt_congr
    exact TMat.el_eq_of_reg (R := fun i j => i ∈ swpOrd fwd k1 k2 ∧ j = 0) (by rw [hP.mb]; exact hP.pos)
      (by rw [hP.nb]; exact hP.pos) (fun x i j h => hs x i j (Or.inl h)) ⟨hi, rfl⟩
  rw [permL_congr hp]
  have hm := permL_mem (l := swpOrd fwd k1 k2) (p := pivAt E P lo A.d.m s') (lo := lo) (m := A.d.m)
    (fun i hi => by rw [mem_swpOrd] at hi; omega)
    (fun i hi => pivAt_mem (by rw [mem_swpOrd] at hi; omega)) (r := r) ⟨hR.1, hR.2.1⟩
  exact TMat.el_eq_of_reg (by rw [hA.mb]; exact hA.pos)
      (by rw [hA.nb]; exact hA.pos) (fun x i j h => hs x i j (Or.inr h)) ⟨hm.1, hm.2, hR.2.2⟩

theorem swpCols_local (hA : A.Al b) (hP : P.Al b) {deps : List ((M × Nat × Nat) × Bool)}
    {r0 r1 : Nat} {fwd : Bool} {k1 k2 : Nat} (h2 : k2 ≤ A.d.n) :
    (swpCols deps E A P r0 r1 fwd k1 k2).Local := by
  apply gop_local
  intro s s' hs r c hR
  rw [interch_permL, interch_permL]
  have hp : ∀ i ∈ swpOrd fwd k1 k2, pivAt E P 0 A.d.n s i = pivAt E P 0 A.d.n s' i := by
    intro i hi
    apply pivAt_congr
    exact TMat.el_eq_of_reg (R := fun i j => i ∈ swpOrd fwd k1 k2 ∧ j = 0) (by rw [hP.mb]; exact hP.pos)
      (by rw [hP.nb]; exact hP.pos) (fun x i j h => hs x i j (Or.inl h)) ⟨hi, rfl⟩
  rw [permL_congr hp]
  have hm := permL_mem (l := swpOrd fwd k1 k2) (p := pivAt E P 0 A.d.n s') (lo := 0) (m := A.d.n)
    (fun i hi => by rw [mem_swpOrd] at hi; omega)
    (fun i hi => pivAt_mem (by rw [mem_swpOrd] at hi; omega)) (r := c) ⟨by omega, hR.2.2⟩
  exact TMat.el_eq_of_reg (by rw [hA.mb]; exact hA.pos)
      (by rw [hA.nb]; exact hA.pos) (fun x i j h => hs x i j (Or.inr h)) ⟨hR.1, hR.2.1, hm.2⟩

end

/-! ### The tile routine -/

section
variable {M : Type u} {α : Type v}

/-- Dependences on the tiles `lo..hi-1` of column `n`.  With `rg` an array section in a `depend`
clause stands for all the tiles it covers; without it only for its base address. -/
def secCol (rg : Bool) (A : TMat M) (lo hi n : Nat) (w : Bool) : List ((M × Nat × Nat) × Bool) :=
  if rg then (span lo hi).map fun m => (A.at' m n, w)
  else if lo < hi then [(A.at' lo n, w)] else []

/-- `plasma_pzgeswp` (compute/pzgeswp.c:22-114) for `incx = ±1`.  In the columnwise case the
`depend` clauses name the first element of the first and last tile of the row only
(lines 93-95). -/
def pzgeswp (rg : Bool) (E : IntCode α) (rowwise fwd : Bool) (A P : TMat M) :
    List (TTask (M × Nat × Nat) α) :=
  if rowwise then
    (List.range A.d.nt).flatMap fun n =>
      ((span 1 (A.d.mt - 1)).map fun m => nopT [(A.at' m n, false), (A.at' 0 n, true)]) ++
      [swpRows (secCol rg P 0 P.d.mt 0 false ++ secCol rg A 0 (A.d.mt - 1) n true ++
          [(A.at' (A.d.mt - 1) n, true)]) E A P 0 (n * A.d.nb) (n * A.d.nb + A.d.nview n) fwd 1 A.d.m] ++
      ((span 1 (A.d.mt - 1)).map fun m => nopT [(A.at' 0 n, false), (A.at' m n, true)])
  else
    (List.range A.d.mt).flatMap fun m =>
      ((span 1 (A.d.nt - 1)).map fun n => nopT [(A.at' m n, false), (A.at' m 0, true)]) ++
      [swpCols (secCol rg P 0 P.d.mt 0 false ++ [(A.at' m 0, true), (A.at' m (A.d.nt - 1), true)])
          E A P (m * A.d.mb) (m * A.d.mb + A.d.mview m) fwd 1 A.d.n] ++
      ((span 1 (A.d.nt - 1)).map fun n => nopT [(A.at' m 0, false), (A.at' m n, true)])

end

end Verif.Tile

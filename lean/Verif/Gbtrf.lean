/-
Model of the LU factorization of a band matrix `pzgbtrf`, and the effects of its tasks.
-/
import Verif.GetrfGood
import Verif.DriverB
import Verif.GbMath

namespace Verif.Tile

open Verif.Layout Verif.LU Verif.Panel Finset

set_option linter.unusedSectionVars false

universe u v w

section model
variable {M : Type u} [DecidableEq M] {α : Type v} [Field α] [StarRing α] [DecidableEq α] {γ : Type w}
  [LinearOrder γ]

/-- Rows of the panel: `mak = imin(A.m-k*A.mb, mvak+A.kl)` (compute/pzgbtrf.c:47). -/
def gbMak (A : TMat M) (k : Nat) : Nat := min (A.d.m - k * A.d.mb) (A.d.mview k + A.d.kl)

/-- Arguments of the panel kernel at step `k` (compute/pzgbtrf.c:47-52,84-87). -/
def gbCfg (ib mpt : Nat) (A : TMat M) (k : Nat) : Cfg where
  b := A.d.mb
  ib := ib
  size := min mpt (min (min A.d.mt A.d.nt - k) A.d.klt)
  M := gbMak A k
  N := A.d.nview k

/-- The memory of the panel kernel at the end (compute/pzgbtrf.c:75-93).  The view
`plasma_desc_view(A, (A.kut-1)*A.mb, k*A.nb, mak, nvak)` of the band layout, taken as a general
matrix, starts at tile `(k,k)`. -/
noncomputable def gbOut (mag : α → γ) (dv : α → α → α) (big : α → Bool) (ib mpt : Nat) (A : TMat M)
    (k : Nat) (s : Store (M × Nat × Nat) α) : PS α :=
  phasesRun (gbCfg ib mpt A k).size (phases (gbCfg ib mpt A k) mag dv big) (toPS A k s)

/-- The panel task (compute/pzgbtrf.c:56-98).  Failing `malloc`s are not modelled. -/
noncomputable def gbPanelT (deps : List ((M × Nat × Nat) × Bool)) (E : IntCode α) (mag : α → γ)
    (dv : α → α → α) (big : α → Bool) (ib mpt : Nat) (A P : TMat M) (k : Nat) :
    TTask (M × Nat × Nat) α where
  deps := deps
  rd := fun _ _ _ => False
  wr := fun x i j =>
    A.reg (fun r c => k * A.d.mb ≤ r ∧ r < k * A.d.mb + gbMak A k ∧
      k * A.d.nb ≤ c ∧ c < k * A.d.nb + A.d.nview k) x i j ∨
    P.reg (fun i j => k * A.d.mb ≤ i ∧ i < k * A.d.mb + min (gbMak A k) (A.d.nview k) ∧ j = 0) x i j
  f := fun s x i j =>
    if x.1 = A.id then
      num (gbCfg ib mpt A k) (gbOut mag dv big ib mpt A k s) (A.row x i - k * A.d.mb)
        (A.col x j - k * A.d.nb)
    else E.enc (pivv (gbOut mag dv big ib mpt A k s) (P.row x i - k * A.d.mb))

/-- Status of the panel task (compute/pzgbtrf.c:89-90). -/
noncomputable def gbCode (mag : α → γ) (dv : α → α → α) (big : α → Bool) (ib mpt : Nat) (A : TMat M)
    (k : Nat) (s : Store (M × Nat × Nat) α) : Int :=
  if infov (gbOut mag dv big ib mpt A k s) = 0 then 0
  else ((k * A.d.mb + infov (gbOut mag dv big ib mpt A k s) : Nat) : Int)

/-- A `depend` item on an array section: an empty section (`on = false`) names no storage. -/
def gsec (on : Bool) (x : M × Nat × Nat) (w : Bool) : List ((M × Nat × Nat) × Bool) :=
  if on then [(x, w)] else []

/-- The section of length `(A.gm-k*A.mb)*…` (compute/pzgbtrf.c:48,106) is not empty.  With
`rg = false` sections are identified by their base address, whatever their length. -/
def gbSec (rg : Bool) (A : TMat M) (k : Nat) : Bool := !rg || decide (k * A.d.mb < A.d.gm)

/-- `depend` clauses of the panel task (compute/pzgbtrf.c:56-57). -/
def gbPanelDeps (rg : Bool) (A P : TMat M) (k : Nat) : List ((M × Nat × Nat) × Bool) :=
  gsec (gbSec rg A k) (A.at' k k) true ++ [(P.at' k 0, true)]

/-- `depend` clauses of the update task (compute/pzgbtrf.c:110-113). -/
def gbUpdDeps (rg : Bool) (A P : TMat M) (k n : Nat) : List ((M × Nat × Nat) × Bool) :=
  gsec (gbSec rg A k) (A.at' k k) false ++ [(P.at' k 0, true), (A.at' k n, true)] ++
  gsec (gbSec rg A (k + 1)) (A.at' (k + 1) n) true

/-- Row number for a pivot relative to row `lo`: `ipiv[i]` counts from the start of the panel. -/
def pivRel (E : IntCode α) (P : TMat M) (lo hi : Nat) (s : Store (M × Nat × Nat) α) (i : Nat) : Nat :=
  if lo + (E.dec (P.el s i 0) - 1) < hi then lo + (E.dec (P.el s i 0) - 1) else i

/-- `plasma_core_zgeswp(PlasmaRowwise, view, 1, k2-k1+1, &ipiv[k*A.mb], 1)` on the view of `mak`
rows of tile column `n` that starts at tile `(k,n)` (compute/pzgbtrf.c:118-126,
core_blas/core_zgeswp.c:22-59).  Pivots out of the view, a memory error in C, are ignored (the
theorems prove that there are none). -/
def gbSwp (E : IntCode α) (A P : TMat M) (k n : Nat) : TTask (M × Nat × Nat) α :=
  gop [] (P.reg fun i j => k * A.d.mb ≤ i ∧ i < min (k * A.d.mb + A.d.mb) A.d.m ∧ j = 0) A
    (fun r c => k * A.d.mb ≤ r ∧ r < k * A.d.mb + gbMak A k ∧ n * A.d.nb ≤ c ∧ c < n * A.d.nb + A.d.nview n)
    (fun s => interch (List.range' (k * A.d.mb) (min (k * A.d.mb + A.d.mb) A.d.m - k * A.d.mb))
      (pivRel E P (k * A.d.mb) (k * A.d.mb + gbMak A k) s) (A.el s))

/-- The kernel calls of the update task (compute/pzgbtrf.c:116-150).  The child tasks of the
loop over `m` write different tiles and read none that another one writes; they are listed in the
order of creation. -/
def gbUpdBody (E : IntCode α) (dv : α → α → α) (A P : TMat M) (k n : Nat) : List (TTask (M × Nat × Nat) α) :=
  [gbSwp E A P k n,
   coreTrsm dv .left .lower .noTrans .unit (A.d.mview k) (A.d.nview n) 1 (A.at' k k) (A.at' k n)] ++
  (span (max (k + 1) (n - A.d.kut)) (min (k + A.d.klt) A.d.mt)).flatMap fun m =>
    [coreGemm .noTrans .noTrans (A.d.mview m) (A.d.nview n) A.d.nb (-1) (A.at' m k) (A.at' k n) 1 (A.at' m n)]

/-- The update task (compute/pzgbtrf.c:110-151). -/
noncomputable def gbUpdT (rg : Bool) (E : IntCode α) (dv : α → α → α) (A P : TMat M) (k n : Nat) :
    TTask (M × Nat × Nat) α := seqT (gbUpdDeps rg A P k n) (gbUpdBody E dv A P k n)

/-- The adjustment of the pivots (compute/pzgbtrf.c:153-160). -/
def gbAdjT (E : IntCode α) (A P : TMat M) (k : Nat) : TTask (M × Nat × Nat) α :=
  gop [(P.at' k 0, false)] (fun _ _ _ => False) P
    (fun i j => 0 < k ∧ k * A.d.mb ≤ i ∧ i < k * A.d.mb + min (gbMak A k) (A.d.nview k) ∧ j = 0)
    (fun s i _ => E.enc (E.dec (P.el s i 0) + k * A.d.mb))

/-- Step `k` of the factorization (compute/pzgbtrf.c:37-161). -/
noncomputable def gbStep (rg : Bool) (E : IntCode α) (mag : α → γ) (dv : α → α → α) (big : α → Bool)
    (ib mpt : Nat) (A P : TMat M) (k : Nat) : List (GTTask (M × Nat × Nat) α) :=
  [{ task := gbPanelT (gbPanelDeps rg A P k) E mag dv big ib mpt A P k
     code := gbCode mag dv big ib mpt A k }] ++
  okT (((span (k + 1) (min A.d.nt (k + A.d.kut))).map fun n => gbUpdT rg E dv A P k n) ++ [gbAdjT E A P k])

/-- `plasma_pzgbtrf` (compute/pzgbtrf.c:24-162). -/
noncomputable def pzgbtrf (rg : Bool) (E : IntCode α) (mag : α → γ) (dv : α → α → α) (big : α → Bool)
    (ib mpt : Nat) (A P : TMat M) : List (GTTask (M × Nat × Nat) α) :=
  (List.range (min A.d.mt A.d.nt)).flatMap (gbStep rg E mag dv big ib mpt A P)

end model

/-! ### Effects of the tasks -/

section effects
variable {M : Type u} [DecidableEq M] {α : Type v} [Field α] [StarRing α] [DecidableEq α] {γ : Type w}
  [LinearOrder γ] {b N kl ku : Nat} {E : IntCode α} {A P : TMat M} {mag : α → γ} {dv : α → α → α} {big : α → Bool}
  {ib mpt : Nat}

/-- The descriptors of a band factorization: square matrix `A` of order `N`, pivot array `P`. -/
structure GbOK (b N kl ku : Nat) (A P : TMat M) (ib mpt : Nat) : Prop where
  a : A.Al b
  p : P.Al b
  ne : A.id ≠ P.id
  m : A.d.m = N
  n : A.d.n = N
  Pm : P.d.m = N
  Pn : P.d.n = 1
  hib : 0 < ib
  hmpt : 0 < mpt
  hkl : A.d.kl = kl
  klt : A.d.klt = 1 + (kl + b - 1) / b
  kut : A.d.kut = 1 + (ku + kl + b - 1) / b

theorem GbOK.lu (h : GbOK b N kl ku A P ib mpt) : LuOK b A P ib mpt :=
  ⟨h.a, h.p, h.ne, by rw [h.m, h.n, h.Pm, Nat.min_self], h.Pn, h.hib, h.hmpt⟩

theorem GbOK.nt (h : GbOK b N kl ku A P ib mpt) : A.d.nt = A.d.mt := by
  have h1 := h.a.lt_mt (k := A.d.nt)
  have h2 := h.a.lt_nt (k := A.d.mt)
  have h3 := h.a.lt_mt (k := A.d.mt)
  have h4 := h.a.lt_nt (k := A.d.nt)
  rw [h.m] at h1 h3
  rw [h.n] at h2 h4
  omega

theorem GbOK.lt (h : GbOK b N kl ku A P ib mpt) {k : Nat} : k < A.d.mt ↔ k * b < N := by
  rw [h.a.lt_mt, h.m]

theorem GbOK.nv (h : GbOK b N kl ku A P ib mpt) {k : Nat} (hk : k < A.d.mt) : A.d.nview k = min b (N - k * b) := by
  rw [h.lu.nv (by rw [h.nt]; exact hk), h.n]

theorem GbOK.mv (h : GbOK b N kl ku A P ib mpt) {k : Nat} (hk : k < A.d.mt) : A.d.mview k = min b (N - k * b) := by
  rw [h.lu.mv hk, h.m]

/-- The rows of the panel end at `min N (k*b+b+kl)`. -/
theorem GbOK.mak (h : GbOK b N kl ku A P ib mpt) {k : Nat} (hk : k < A.d.mt) :
    k * b + gbMak A k = min N (k * b + b + kl) := by
  have := h.lt.mp hk
  unfold gbMak
  rw [h.m, h.a.mb, h.mv hk, h.hkl]
  omega

theorem GbOK.kltb (h : GbOK b N kl ku A P ib mpt) (k : Nat) : k * b + b + kl ≤ (k + A.d.klt) * b := by
  have hb := h.a.pos
  have := (BPar.lt_bkt (k := kl) (d := A.d.klt) hb).not.mp (by rw [h.klt]; omega)
  rw [Nat.add_mul]; omega

theorem GbOK.kutb (h : GbOK b N kl ku A P ib mpt) (k : Nat) : k * b + b + (ku + kl) ≤ (k + A.d.kut) * b := by
  have hb := h.a.pos
  have := (BPar.lt_bkt (k := ku + kl) (d := A.d.kut) hb).not.mp (by rw [h.kut]; omega)
  rw [Nat.add_mul]; omega

theorem GbOK.kut_pos (h : GbOK b N kl ku A P ib mpt) : 0 < A.d.kut := by
  rw [h.kut, Nat.add_comm]; exact Nat.succ_pos _

theorem GbOK.klt_pos (h : GbOK b N kl ku A P ib mpt) : 0 < A.d.klt := by
  rw [h.klt, Nat.add_comm]; exact Nat.succ_pos _

theorem GbOK.cfg (h : GbOK b N kl ku A P ib mpt) {k : Nat} (hk : k < A.d.mt) : (gbCfg ib mpt A k).OK := by
  refine ⟨by simp only [gbCfg, h.a.mb]; exact h.a.pos, h.hib, ?_, ?_⟩
  · simp only [gbCfg]
    have e := h.nt
    have : 0 < min A.d.mt A.d.nt - k := by rw [e, Nat.min_self]; omega
    exact Nat.lt_min.mpr ⟨h.hmpt, Nat.lt_min.mpr ⟨this, by rw [h.klt, Nat.add_comm]; exact Nat.succ_pos _⟩⟩
  · simp only [gbCfg]
    rw [h.a.mb, h.nv hk]
    omega

theorem num_toPS' (h : GbOK b N kl ku A P ib mpt) (k : Nat) (s : Store (M × Nat × Nat) α) (r c : Nat) :
    num (gbCfg ib mpt A k) (toPS A k s) r c = A.el s (k * b + r) (k * b + c) := by
  simp only [num, toPS, gbCfg, h.a.mb, h.a.nb, divmod]

/-- Effect of the panel. -/
theorem gbPanel_eff (h : GbOK b N kl ku A P ib mpt) {k : Nat}
    (d : List ((M × Nat × Nat) × Bool)) (s : Store (M × Nat × Nat) α) :
    let s' := (gbPanelT d E mag dv big ib mpt A P k).run s
    let o := gbOut mag dv big ib mpt A k s
    (∀ r c, k * b ≤ r → r < k * b + gbMak A k → k * b ≤ c → c < k * b + A.d.nview k →
      A.el s' r c = num (gbCfg ib mpt A k) o (r - k * b) (c - k * b)) ∧
    (∀ r c, ¬ (k * b ≤ r ∧ r < k * b + gbMak A k ∧ k * b ≤ c ∧ c < k * b + A.d.nview k) → A.el s' r c = A.el s r c) ∧
    (∀ i, k * b ≤ i → i < k * b + min (gbMak A k) (A.d.nview k) →
      E.dec (P.el s' i 0) = pivv o (i - k * b)) ∧
    (∀ i, ¬ (k * b ≤ i ∧ i < k * b + min (gbMak A k) (A.d.nview k)) → P.el s' i 0 = P.el s i 0) ∧
    (∀ x, x.1 ≠ A.id → x.1 ≠ P.id → s' x = s x) := by
  have hb := h.a.pos
  have hA1 : 0 < A.d.mb := by rw [h.a.mb]; exact hb
  have hA2 : 0 < A.d.nb := by rw [h.a.nb]; exact hb
  have hP1 : 0 < P.d.mb := by rw [h.p.mb]; exact hb
  have hP2 : 0 < P.d.nb := by rw [h.p.nb]; exact hb
  intro s' o
  have hreg : ∀ R r c, ¬ P.reg R (A.at' (r / A.d.mb) (c / A.d.nb)) (r % A.d.mb) (c % A.d.nb) := by
    intro R r c hr; exact h.ne hr.1
  have hreg' : ∀ R r c, ¬ A.reg R (P.at' (r / P.d.mb) (c / P.d.nb)) (r % P.d.mb) (c % P.d.nb) := by
    intro R r c hr; exact h.ne hr.1.symm
  refine ⟨?_, ?_, ?_, ?_, ?_⟩
  · intro r c h1 h2 h3 h4
    show A.el ((gbPanelT d E mag dv big ib mpt A P k).run s) r c = _
    unfold TMat.el
    rw [TTask.run_wr _ _ (Or.inl ((A.reg_at hA1 hA2 _ r c).mpr (by rw [h.a.mb, h.a.nb]; exact ⟨h1, h2, h3, h4⟩)))]
    simp only [gbPanelT]
    rw [if_pos TMat.at'_id, A.row_at, A.col_at, h.a.mb, h.a.nb]
  · intro r c hn
    show A.el ((gbPanelT d E mag dv big ib mpt A P k).run s) r c = _
    unfold TMat.el
    rw [TTask.run_frame]
    rintro (hw | hw)
    · rw [A.reg_at hA1 hA2, h.a.mb, h.a.nb] at hw; exact hn hw
    · exact hreg _ _ _ hw
  · intro i h1 h2
    have e2 : P.el s' i 0 = E.enc (pivv o (i - k * b)) := by
      show P.el ((gbPanelT d E mag dv big ib mpt A P k).run s) i 0 = _
      unfold TMat.el
      rw [TTask.run_wr _ _ (Or.inr ((P.reg_at hP1 hP2 _ i 0).mpr (by rw [h.a.mb]; exact ⟨h1, h2, rfl⟩)))]
      simp only [gbPanelT]
      rw [if_neg (by rw [TMat.at'_id]; exact h.ne.symm), P.row_at, h.a.mb]
    rw [e2, E.dec_enc]
  · intro i hn
    show P.el ((gbPanelT d E mag dv big ib mpt A P k).run s) i 0 = _
    unfold TMat.el
    rw [TTask.run_frame]
    rintro (hw | hw)
    · exact hreg' _ _ _ hw
    · rw [P.reg_at hP1 hP2, h.a.mb] at hw; exact hn ⟨hw.1, hw.2.1⟩
  · intro x h1 h2
    funext i j
    apply TTask.run_frame
    rintro (hw | hw)
    · exact h1 hw.1
    · exact h2 hw.1

/-- Effect of the adjustment. -/
theorem gbAdj_eff (h : GbOK b N kl ku A P ib mpt) {k : Nat} (s : Store (M × Nat × Nat) α) :
    let s' := (gbAdjT E A P k).run s
    (∀ r c, A.el s' r c = A.el s r c) ∧
    (∀ i, k * b ≤ i → i < k * b + min (gbMak A k) (A.d.nview k) →
      E.dec (P.el s' i 0) = E.dec (P.el s i 0) + k * b) ∧
    (∀ i, ¬ (k * b ≤ i ∧ i < k * b + min (gbMak A k) (A.d.nview k)) → P.el s' i 0 = P.el s i 0) ∧
    (∀ x, x.1 ≠ P.id → s' x = s x) := by
  have hb := h.a.pos
  have hP1 : 0 < P.d.mb := by rw [h.p.mb]; exact hb
  have hP2 : 0 < P.d.nb := by rw [h.p.nb]; exact hb
  refine ⟨fun r c => gop_el_ne s h.ne r c, ?_, ?_, fun x hx => gop_ne s hx⟩
  · intro i h1 h2
    by_cases hk : 0 < k
    · refine (congrArg E.dec (gop_in hP1 hP2 s (by rw [h.a.mb]; exact ⟨hk, h1, h2, rfl⟩))).trans ?_
      rw [E.dec_enc, h.a.mb]
    · obtain rfl : k = 0 := by omega
      refine (congrArg E.dec (gop_out hP1 hP2 s (fun hh => hk hh.1))).trans ?_
      omega
  · intro i hn
    exact gop_out hP1 hP2 s (by rw [h.a.mb]; exact fun hh => hn ⟨hh.2.1, hh.2.2.1⟩)

/-- Effect of one update task. -/
theorem gbUpd_eff (hdv : IsDiv dv) (h : GbOK b N kl ku A P ib mpt) {k n : Nat} (hkn : k < n)
    (hn : n < A.d.mt) (hnk : n < k + A.d.kut) (rg : Bool) (s : Store (M × Nat × Nat) α) {p : Nat → Nat}
    (hp : ∀ i, k * b ≤ i → i < k * b + b →
      k * b + (E.dec (P.el s i 0) - 1) = p i ∧ i ≤ p i ∧ p i < k * b + gbMak A k) :
    let s' := (gbUpdT rg E dv A P k n).run s
    (∀ r c, k * b ≤ r → r < N → r < (k + A.d.klt) * b → n * b ≤ c → c < n * b + A.d.nview n →
      A.el s (perm p (k * b) b r) c =
        ∑ l ∈ Ico (k * b) (min r (k * b + b)), A.el s r l * A.el s' l c + A.el s' r c) ∧
    (∀ r c, ¬ (k * b ≤ r ∧ r < N ∧ r < (k + A.d.klt) * b ∧ n * b ≤ c ∧ c < n * b + A.d.nview n) →
      A.el s' r c = A.el s r c) ∧
    (∀ x, x.1 ≠ A.id → s' x = s x) := by
  have hb := h.a.pos
  intro s'
  have hk : k < A.d.mt := by omega
  have hnv := h.nv hn
  have hmv := h.mv hk
  have hkm := h.lt.mp hk
  have hnn := h.lt.mp hn
  have hkb : k * b + b ≤ n * b := by
    have : (k + 1) * b ≤ n * b := Nat.mul_le_mul_right _ hkn
    rw [Nat.add_mul, Nat.one_mul] at this; exact this
  have hmak := h.mak hk
  have hklt := h.kltb k
  have hA1 : 0 < A.d.mb := by rw [h.a.mb]; exact h.a.pos
  have hA2 : 0 < A.d.nb := by rw [h.a.nb]; exact h.a.pos
  -- interchanges
  set s1 := (gbSwp E A P k n).run s with hs1
  have hperm : permL (List.range' (k * b) (min (k * b + b) N - k * b)) (pivRel E P (k * b) (k * b + gbMak A k) s) =
      perm p (k * b) b := by
    rw [permL_range', show min (k * b + b) N - k * b = b by omega]
    apply perm_congr
    intro i h1 h2
    obtain ⟨e1, e2, e3⟩ := hp i h1 h2
    unfold pivRel
    rw [e1, if_pos e3]
  have w1 : ∀ r c, k * b ≤ r → r < k * b + gbMak A k → n * b ≤ c → c < n * b + A.d.nview n →
      A.el s1 r c = A.el s (perm p (k * b) b r) c := by
    intro r c h1 h2 h3 h4
    refine Eq.trans (gop_in (R := fun r c => k * A.d.mb ≤ r ∧ r < k * A.d.mb + gbMak A k ∧ n * A.d.nb ≤ c ∧
      c < n * A.d.nb + A.d.nview n) hA1 hA2 s (by rw [h.a.mb, h.a.nb]; exact ⟨h1, h2, h3, h4⟩)) ?_
    rw [interch_permL, h.a.mb, h.m, hperm]
  have w2 : ∀ r c, ¬ (k * b ≤ r ∧ r < k * b + gbMak A k ∧ n * b ≤ c ∧ c < n * b + A.d.nview n) →
      A.el s1 r c = A.el s r c := by
    intro r c hno
    exact gop_out hA1 hA2 s (by rw [h.a.mb, h.a.nb]; exact hno)
  have w3 : ∀ x, x.1 ≠ A.id → s1 x = s x := fun x hx => gop_ne s hx
  -- the rows below the panel stay in place
  have w4 : ∀ r c, k * b ≤ r → n * b ≤ c → c < n * b + A.d.nview n →
      A.el s1 r c = A.el s (perm p (k * b) b r) c := by
    intro r c h1 h3 h4
    by_cases h2 : r < k * b + gbMak A k
    · exact w1 r c h1 h2 h3 h4
    · rw [w2 r c (by omega), perm_ge (m := k * b + gbMak A k) (fun i a1 a2 => (hp i a1 a2).2) (by omega) (by omega)]
  -- solve
  set s2 := (coreTrsm dv .left .lower .noTrans .unit (A.d.mview k) (A.d.nview n) 1 (A.at' k k) (A.at' k n)).run s1 with hs2
  have t1 : ∀ i j, i < A.d.mview k → j < A.d.nview n →
      s1 (A.at' k n) i j = ∑ l ∈ range i, s1 (A.at' k k) i l * s2 (A.at' k n) l j + s2 (A.at' k n) i j := by
    intro i j hi hj
    have hrun : ∀ l, l < A.d.mview k → s2 (A.at' k n) l j = trsmK dv .left .lower .noTrans .unit
        (A.d.mview k) (A.d.nview n) 1 (s1 (A.at' k k)) (s1 (A.at' k n)) l j := fun l hl => coreTrsm_run s1 ⟨hl, hj⟩
    rw [hrun i hi, trsmLLU hdv (m := A.d.mview k) (n := A.d.nview n) (s1 (A.at' k k)) (s1 (A.at' k n)) hi]
    congr 1
    refine sum_congr rfl fun l hl => ?_
    rw [mem_range] at hl
    rw [hrun l (by omega)]
  have t2 : ∀ x, x ≠ A.at' k n → s2 x = s1 x := fun x hx => op1_ne s1 hx
  have t3 : ∀ i j, ¬ (i < A.d.mview k ∧ j < A.d.nview n) → s2 (A.at' k n) i j = s1 (A.at' k n) i j := by
    intro i j hij
    rw [hs2]; unfold coreTrsm; rw [op1_self, paste_out hij]
  -- products
  have hlo : max (k + 1) (n - A.d.kut) = k + 1 := by omega
  set hi := min (k + A.d.klt) A.d.mt with hhi
  have hs' : s' = texec ((span (k + 1) hi).flatMap fun m =>
    [coreGemm .noTrans .noTrans (A.d.mview m) (A.d.nview n) A.d.nb (-1) (A.at' m k) (A.at' k n) 1 (A.at' m n)]) s2 := by
    show (gbUpdT rg E dv A P k n).run s = _
    unfold gbUpdT
    rw [seqT_run]
    unfold gbUpdBody
    rw [texec_append, hlo]
    rfl
  have hW : ∀ m ∈ span (k + 1) hi, Writes (fun t => t = A.at' m n)
      [coreGemm (α := α) .noTrans .noTrans (A.d.mview m) (A.d.nview n) A.d.nb (-1) (A.at' m k) (A.at' k n) 1 (A.at' m n)] :=
    fun m _ => writes_op2 rfl
  have g1 : ∀ m, k < m → m < hi → ∀ i j, i < A.d.mview m → j < A.d.nview n →
      s' (A.at' m n) i j = s2 (A.at' m n) i j - ∑ l ∈ range b, s2 (A.at' m k) i l * s2 (A.at' k n) l j := by
    intro m h1 h2 i j hi' hj
    have hm : m ∈ span (k + 1) hi := mem_span.mpr ⟨h1, h2⟩
    rw [hs', par (o := fun m => A.at' m n) nodup_span (fun p _ q _ e => (TMat.at'_inj.mp e).1) ?_ hW s2 hm]
    · simp only [texec_cons, texec_nil]
      rw [gemm_run s2 ⟨hi', hj⟩, h.a.nb]
      simp only [opE]
      ring
    · intro p hp
      rw [mem_span] at hp
      refine gemm_within (Or.inl ?_) (Or.inl ?_) (Or.inr rfl)
      · intro q _ e; have := (TMat.at'_inj.mp e).2; omega
      · intro q hq e; rw [mem_span] at hq; have := (TMat.at'_inj.mp e).1; omega
  have g2 : ∀ x, (∀ m, k < m → m < hi → x ≠ A.at' m n) → s' x = s2 x := by
    intro x hx
    rw [hs']
    exact par_frame (o := fun m => A.at' m n) hW s2 (fun q hq => by rw [mem_span] at hq; exact hx q hq.1 hq.2)
  have g3 : ∀ m, k < m → m < hi → ∀ i j, ¬ (i < A.d.mview m ∧ j < A.d.nview n) →
      s' (A.at' m n) i j = s2 (A.at' m n) i j := by
    intro m h1 h2 i j hij
    have hm : m ∈ span (k + 1) hi := mem_span.mpr ⟨h1, h2⟩
    rw [hs']
    have : WritesE (fun x i j => ∀ m', k < m' → m' < hi → x = A.at' m' n → i < A.d.mview m' ∧ j < A.d.nview n)
      ((span (k + 1) hi).flatMap fun m => [coreGemm (α := α) .noTrans .noTrans (A.d.mview m) (A.d.nview n) A.d.nb (-1)
        (A.at' m k) (A.at' k n) 1 (A.at' m n)]) := by
      refine WritesE.flatMap fun q _ => WritesE.single ?_
      rintro x i j ⟨rfl, hij⟩ m' _ _ e
      rw [← (TMat.at'_inj.mp e).1]; exact hij
    exact this.frame s2 (fun hh => hij (hh m h1 h2 rfl))
  -- global view
  have colj : ∀ c, n * b ≤ c → c < n * b + A.d.nview n → ∃ j, j < A.d.nview n ∧ j < b ∧ c = n * b + j := by
    intro c h1 h2
    exact ⟨c - n * b, by omega, by omega, by omega⟩
  have pan1 : ∀ r l, k * b ≤ l → l < k * b + b → A.el s1 r l = A.el s r l := by
    intro r l h1 h2
    rw [w2 r l (by omega)]
  refine ⟨?_, ?_, ?_⟩
  · intro r c h1 h2 h2' h3 h4
    obtain ⟨j, hj, hjb, rfl⟩ := colj c h3 h4
    rw [← w4 r _ h1 (by omega) (by omega)]
    by_cases hrk : r < k * b + b
    · -- top block
      obtain ⟨i, hi', rfl⟩ : ∃ i, i < b ∧ r = k * b + i := ⟨r - k * b, by omega, by omega⟩
      have hi'' : i < A.d.mview k := by rw [hmv]; omega
      have e1 := t1 i j hi'' hj
      rw [Nat.min_eq_left (by omega), sum_Ico_eq_sum_range, Nat.add_sub_cancel_left,
        h.a.el_tile s1 hi' hjb, e1, h.a.el_tile s' hi' hjb,
        g2 _ (fun m h1 _ e => by have := (TMat.at'_inj.mp e).1; omega)]
      congr 1
      refine sum_congr rfl fun l hl => ?_
      rw [mem_range] at hl
      rw [h.a.el_tile s' (by omega) hjb, ← pan1 _ _ (by omega) (by omega), h.a.el_tile s1 hi' (by omega),
        g2 _ (fun m h1 _ e => by have := (TMat.at'_inj.mp e).1; omega)]
    · have hrk : k * b + b ≤ r := by omega
      set m := r / b with hm
      set i := r % b with hi'
      have hri : r = m * b + i := (divmod r b).symm
      have hib : i < b := Nat.mod_lt _ hb
      have hkm' : k < m := by
        rw [hm, Nat.lt_iff_add_one_le, Nat.le_div_iff_mul_le hb, Nat.add_mul, Nat.one_mul]; exact hrk
      have hmt : m < A.d.mt := h.a.row_mt (by rw [h.m]; exact h2)
      have hmh : m < hi := by
        have : m < k + A.d.klt := by rw [hm]; exact (Nat.div_lt_iff_lt_mul hb).mpr h2'
        omega
      have hiv : i < A.d.mview m := by rw [h.mv hmt]; omega
      have e1 := g1 m hkm' hmh i j hiv hj
      rw [Nat.min_eq_right (by omega), sum_Ico_eq_sum_range, Nat.add_sub_cancel_left, hri,
        h.a.el_tile s1 hib hjb, h.a.el_tile s' hib hjb, e1,
        t2 _ (fun e => by have := (TMat.at'_inj.mp e).1; omega)]
      have : ∀ l ∈ range b, s2 (A.at' m k) i l * s2 (A.at' k n) l j =
          A.el s (m * b + i) (k * b + l) * A.el s' (k * b + l) (n * b + j) := by
        intro l hl
        rw [mem_range] at hl
        rw [h.a.el_tile s' hl hjb, ← pan1 _ _ (by omega) (by omega), h.a.el_tile s1 hib hl,
          g2 _ (fun m h1 _ e => by have := (TMat.at'_inj.mp e).1; omega),
          t2 _ (fun e => by have := (TMat.at'_inj.mp e).2; omega)]
      rw [sum_congr rfl this]
      ring
  · intro r c hno
    have hw2 : A.el s1 r c = A.el s r c := w2 r c (by omega)
    rw [← hw2]
    by_cases hc : c / b = n
    · have hc' : c = n * b + c % b := by rw [← hc]; exact (divmod c b).symm
      have hcb : c % b < b := Nat.mod_lt _ hb
      have hri : r = r / b * b + r % b := (divmod r b).symm
      have hrb : r % b < b := Nat.mod_lt _ hb
      rw [hri, hc', h.a.el_tile s' hrb hcb, h.a.el_tile s1 hrb hcb]
      by_cases h1 : k < r / b ∧ r / b < hi
      · rw [g3 _ h1.1 h1.2, t2 _ (fun e => by have := (TMat.at'_inj.mp e).1; omega)]
        rintro ⟨h3, h4⟩
        apply hno
        rw [h.mv (by omega)] at h3
        have a1 : (k + 1) * b ≤ r / b * b := Nat.mul_le_mul_right _ h1.1
        have a2 : (r / b + 1) * b ≤ (k + A.d.klt) * b := Nat.mul_le_mul_right _ (by omega)
        rw [Nat.add_mul, Nat.one_mul] at a1 a2
        refine ⟨by omega, by omega, by omega, by omega, by omega⟩
      · rw [g2 _ (fun m a1 a2 e => h1 (by rw [(TMat.at'_inj.mp e).1]; exact ⟨a1, a2⟩))]
        by_cases h2 : r / b = k
        · rw [h2, t3]
          rintro ⟨h3, h4⟩
          apply hno
          rw [hmv] at h3
          rw [h2] at hri
          refine ⟨by omega, by omega, by omega, by omega, by omega⟩
        · rw [t2 _ (fun e => h2 (TMat.at'_inj.mp e).1)]
    · unfold TMat.el
      rw [h.a.mb, h.a.nb, g2 _ (fun m _ _ e => hc (TMat.at'_inj.mp e).2),
        t2 _ (fun e => hc (TMat.at'_inj.mp e).2)]
  · intro x hx
    rw [g2 x (fun m _ _ e => hx (by rw [e]; rfl)), t2 x (fun e => hx (by rw [e]; rfl)), w3 x hx]

/-- All updates of a step. -/
theorem gbUpds_eff (hdv : IsDiv dv) (h : GbOK b N kl ku A P ib mpt) {k : Nat} (hk : k < A.d.mt)
    (rg : Bool) (s : Store (M × Nat × Nat) α) {p : Nat → Nat}
    (hp : k + 1 < A.d.mt → ∀ i, k * b ≤ i → i < k * b + b →
      k * b + (E.dec (P.el s i 0) - 1) = p i ∧ i ≤ p i ∧ p i < k * b + gbMak A k)
    {H : Nat} (hkH : k + 1 ≤ H) (hH : H ≤ A.d.mt) (hH2 : H ≤ k + A.d.kut) :
    let s' := texec ((span (k + 1) H).map fun n => gbUpdT rg E dv A P k n) s
    (∀ r c, k * b ≤ r → r < N → r < (k + A.d.klt) * b → k * b + b ≤ c → c < min N (H * b) →
      A.el s (perm p (k * b) b r) c =
        ∑ l ∈ Ico (k * b) (min r (k * b + b)), A.el s r l * A.el s' l c + A.el s' r c) ∧
    (∀ r c, ¬ (k * b ≤ r ∧ r < N ∧ r < (k + A.d.klt) * b ∧ k * b + b ≤ c ∧ c < min N (H * b)) →
      A.el s' r c = A.el s r c) ∧
    (∀ x, x.1 ≠ A.id → s' x = s x) := by
  have hb := h.a.pos
  have e1 : (k + 1) * b = k * b + b := by ring
  have hklt := h.kltb k
  induction H with
  | zero => omega
  | succ H ih =>
    rcases Nat.lt_or_ge H (k + 1) with hlt | hge
    · obtain rfl : H = k := by omega
      intro s'
      have : s' = s := by
        show texec ((span (H + 1) (H + 1)).map _) s = s
        unfold span; rw [Nat.sub_self]; rfl
      rw [this]
      exact ⟨fun r c _ _ _ h3 h4 => by omega, fun _ _ _ => rfl, fun _ _ => rfl⟩
    · intro s'
      obtain ⟨i1, i2, i3⟩ := ih hge (by omega) (by omega)
      set s1 := texec ((span (k + 1) H).map fun n => gbUpdT rg E dv A P k n) s with hs1
      have hs' : s' = (gbUpdT rg E dv A P k H).run s1 := by
        show texec ((span (k + 1) (H + 1)).map _) s = _
        have : span (k + 1) (H + 1) = span (k + 1) H ++ [H] := by
          unfold span
          rw [show H + 1 - (k + 1) = (H - (k + 1)) + 1 by omega, List.range'_concat]
          congr 2; omega
        rw [this, List.map_append, texec_append]
        rfl
      have hPs : ∀ i, P.el s1 i 0 = P.el s i 0 := fun i => by
        unfold TMat.el; rw [i3]; exact h.ne.symm
      obtain ⟨j1, j2, j3⟩ := gbUpd_eff hdv h (n := H) (show k < H by omega) (by omega) (by omega) rg s1 (p := p)
        (fun i a1 a2 => by rw [hPs]; exact hp (by omega) i a1 a2)
      rw [← hs'] at j1 j2 j3
      have hnv := h.nv (show H < A.d.mt by omega)
      have hNn := h.lt.mp (show H < A.d.mt by omega)
      have e2 : (H + 1) * b = H * b + b := by ring
      have e3 : (k + 1) * b ≤ H * b := Nat.mul_le_mul_right _ hge
      rw [hnv] at j1 j2
      rw [e2]
      generalize (k + A.d.klt) * b = T at *
      refine ⟨?_, ?_, ?_⟩
      · intro r c h1 h2 h2' h3 h4
        rcases Nat.lt_or_ge c (H * b) with hc | hc
        · rw [i1 r c h1 h2 h2' h3 (by omega), j2 r c (by omega)]
          congr 1
          refine sum_congr rfl fun l hl => ?_
          rw [mem_Ico] at hl
          rw [j2 l c (by omega)]
        · rw [← i2 _ c (by omega), j1 r c h1 h2 h2' hc (by omega)]
          congr 1
          refine sum_congr rfl fun l hl => ?_
          rw [mem_Ico] at hl
          rw [i2 r l (by omega)]
      · intro r c hn
        rw [j2 r c (by omega), i2 r c (by omega)]
      · intro x hx; rw [j3 x hx, i3 x hx]

theorem gbStep_tasks (rg : Bool) (k : Nat) (s : Store (M × Nat × Nat) α) :
    texec (tasks (gbStep rg E mag dv big ib mpt A P k)) s =
      (gbAdjT E A P k).run (texec ((span (k + 1) (min A.d.nt (k + A.d.kut))).map fun n => gbUpdT rg E dv A P k n)
        ((gbPanelT (gbPanelDeps rg A P k) E mag dv big ib mpt A P k).run s)) := by
  unfold gbStep
  rw [tasks_append, tasks_okT, texec_append, texec_append]
  rfl

end effects

end Verif.Tile

/-
Model of the LU factorization `pzgetrf`.
-/
import Verif.Geswp

namespace Verif.Tile

open Verif.Layout Verif.LU Verif.Panel Finset

set_option linter.unusedSectionVars false

universe u v w

section model
variable {M : Type u} [DecidableEq M] {α : Type v} [Field α] [StarRing α] [DecidableEq α] {γ : Type w}
  [LinearOrder γ]

/-- Arguments of the panel kernel at step `k` (compute/pzgetrf.c:64-69,103-111). -/
def getrfCfg (ib mpt : Nat) (A : TMat M) (k : Nat) : Cfg where
  b := A.d.mb
  ib := ib
  size := min mpt (min A.d.mt A.d.nt - k)
  M := A.d.m - k * A.d.mb
  N := A.d.nview k

/-- The memory of the panel kernel when it is called: `plasma_desc_view(A, k*mb, k*nb, m-k*mb,
nvak)`, `info = 0`, everything else not yet written (compute/pzgetrf.c:76-106). -/
def toPS (A : TMat M) (k : Nat) (s : Store (M × Nat × Nat) α) : PS α := fun x i c =>
  match x with
  | .a l => (A.el s (k * A.d.mb + (l * A.d.mb + i)) (k * A.d.nb + c), 0)
  | _ => (0, 0)

/-- The memory of the panel kernel at the end: by `panel_run` this is the result of every
interleaving of the ranks. -/
noncomputable def panelOut (mag : α → γ) (dv : α → α → α) (big : α → Bool) (ib mpt : Nat) (A : TMat M)
    (k : Nat) (s : Store (M × Nat × Nat) α) : PS α :=
  phasesRun (getrfCfg ib mpt A k).size (phases (getrfCfg ib mpt A k) mag dv big) (toPS A k s)

/-- The panel task without the adjustment of the pivots (compute/pzgetrf.c:71-121). -/
noncomputable def panelT (deps : List ((M × Nat × Nat) × Bool)) (E : IntCode α) (mag : α → γ)
    (dv : α → α → α) (big : α → Bool) (ib mpt : Nat) (A P : TMat M) (k : Nat) :
    TTask (M × Nat × Nat) α where
  deps := deps
  rd := fun _ _ _ => False
  wr := fun x i j =>
    A.reg (fun r c => k * A.d.mb ≤ r ∧ r < A.d.m ∧ k * A.d.nb ≤ c ∧ c < k * A.d.nb + A.d.nview k) x i j ∨
    P.reg (fun i j => k * A.d.mb ≤ i ∧ i < min A.d.m (k * A.d.mb + A.d.nview k) ∧ j = 0) x i j
  f := fun s x i j =>
    if x.1 = A.id then
      num (getrfCfg ib mpt A k) (panelOut mag dv big ib mpt A k s) (A.row x i - k * A.d.mb)
        (A.col x j - k * A.d.nb)
    else E.enc (pivv (panelOut mag dv big ib mpt A k s) (P.row x i - k * A.d.mb))

/-- Status of the panel task: `plasma_request_fail(sequence, request, k*A.mb+info)` if the kernel
set `info` (compute/pzgetrf.c:113-114). -/
noncomputable def panelCode (mag : α → γ) (dv : α → α → α) (big : α → Bool) (ib mpt : Nat) (A : TMat M)
    (k : Nat) (s : Store (M × Nat × Nat) α) : Int :=
  if infov (panelOut mag dv big ib mpt A k s) = 0 then 0
  else ((k * A.d.mb + infov (panelOut mag dv big ib mpt A k s) : Nat) : Int)

/-- The adjustment of the pivots (compute/pzgetrf.c:123-124).  It is the end of the panel task,
outside of the test of the status; as a separate task with the same `depend` clauses it runs
right after. -/
def adjustT (deps : List ((M × Nat × Nat) × Bool)) (E : IntCode α) (A P : TMat M) (k : Nat) :
    TTask (M × Nat × Nat) α :=
  gop deps (fun _ _ _ => False) P
    (fun i j => k * A.d.mb ≤ i ∧ i < min A.d.m (k * A.d.mb + A.d.nview k) ∧ j = 0)
    (fun s i _ => E.enc (E.dec (P.el s i 0) + k * A.d.mb))

/-- `depend` clauses of the panel task (compute/pzgetrf.c:71-74). -/
def panelDeps (rg : Bool) (A P : TMat M) (k : Nat) : List ((M × Nat × Nat) × Bool) :=
  secCol rg A k (A.d.mt - 1) k true ++ [(A.at' (A.d.mt - 1) k, true), (P.at' k 0, true)]

/-- `depend` clauses of the update task (compute/pzgetrf.c:140-146).  For `k = mt-1` the section
`a11[0:ma11k*na11n]` has negative length and is left out. -/
def updDeps (rg : Bool) (A P : TMat M) (k n : Nat) : List ((M × Nat × Nat) × Bool) :=
  secCol rg A k (A.d.mt - 1) k false ++ [(A.at' (A.d.mt - 1) k, false), (P.at' k 0, false),
    (A.at' k n, true)] ++ secCol rg A (k + 1) (A.d.mt - 1) n true ++ [(A.at' (A.d.mt - 1) n, true)]

/-- The kernel calls of the update task: interchanges, triangular solve, and one child task per
tile below (compute/pzgetrf.c:147-179).  The child tasks write different tiles and read none
that another one writes; they are listed in the order of creation. -/
def updBody (E : IntCode α) (dv : α → α → α) (A P : TMat M) (k n : Nat) : List (TTask (M × Nat × Nat) α) :=
  [swpRows [] E A P (k * A.d.mb) (n * A.d.nb) (n * A.d.nb + A.d.nview n) true (k * A.d.mb + 1)
      (min (k * A.d.mb + A.d.mb) A.d.m),
   coreTrsm dv .left .lower .noTrans .unit (A.d.mview k) (A.d.nview n) 1 (A.at' k k) (A.at' k n)] ++
  (span (k + 1) A.d.mt).flatMap fun m =>
    [coreGemm .noTrans .noTrans (A.d.mview m) (A.d.nview n) A.d.nb (-1) (A.at' m k) (A.at' k n) 1 (A.at' m n)]

/-- The update task (compute/pzgetrf.c:140-179). -/
noncomputable def updT (rg : Bool) (E : IntCode α) (dv : α → α → α) (A P : TMat M) (k n : Nat) :
    TTask (M × Nat × Nat) α := seqT (updDeps rg A P k n) (updBody E dv A P k n)

/-- The task applying the later interchanges to block column `k` (compute/pzgetrf.c:207-218). -/
def leftSwp (rg : Bool) (E : IntCode α) (A P : TMat M) (k : Nat) : TTask (M × Nat × Nat) α :=
  swpRows (secCol rg P 0 P.d.mt 0 false ++ secCol rg A (k + 1) (A.d.mt - 1) k true ++
      [(A.at' (A.d.mt - 1) k, true)]) E A P ((k + 1) * A.d.mb) (k * A.d.nb) (k * A.d.nb + A.d.nb) true
    ((k + 1) * A.d.mb + 1) (min A.d.m A.d.n)

/-- Step `k` of the factorization (compute/pzgetrf.c:39-181). -/
noncomputable def getrfStep (rg : Bool) (E : IntCode α) (mag : α → γ) (dv : α → α → α) (big : α → Bool)
    (ib mpt : Nat) (A P : TMat M) (k : Nat) : List (GTTask (M × Nat × Nat) α) :=
  okT ((span (k + 1) (A.d.mt - 1)).map fun m => nopT [(A.at' m k, false), (A.at' k k, true)]) ++
  [{ task := panelT (panelDeps rg A P k) E mag dv big ib mpt A P k
     code := panelCode mag dv big ib mpt A k },
   { task := adjustT (panelDeps rg A P k) E A P k, guard := false }] ++
  okT ((span (k + 1) A.d.nt).map fun n => updT rg E dv A P k n)

/-- The tasks after the factorization proper (compute/pzgetrf.c:183-232). -/
def getrfTail (rg : Bool) (E : IntCode α) (A P : TMat M) : List (TTask (M × Nat × Nat) α) :=
  ((List.range (min A.d.mt A.d.nt)).map fun m => nopT [(P.at' m 0, false), (P.at' 0 0, true)]) ++
  (List.range (min A.d.mt A.d.nt - 1)).flatMap fun k =>
    leftSwp rg E A P k ::
    ((span (k + 2) (A.d.mt - 1)).map fun m => nopT [(A.at' (k + 1) k, false), (A.at' m k, true)])

/-- `plasma_pzgetrf` (compute/pzgetrf.c:24-233).  `P` is the pivot array, seen as a matrix with
one column; `mag`, `big` are the functions of the panel kernel; `ib`, `mpt` are
`plasma->ib`, `plasma->max_panel_threads`. -/
noncomputable def pzgetrf (rg : Bool) (E : IntCode α) (mag : α → γ) (dv : α → α → α) (big : α → Bool)
    (ib mpt : Nat) (A P : TMat M) : List (GTTask (M × Nat × Nat) α) :=
  (List.range (min A.d.mt A.d.nt)).flatMap (getrfStep rg E mag dv big ib mpt A P) ++
  okT (getrfTail rg E A P)

end model

/-! ### Effects of the tasks -/

section effects
variable {M : Type u} [DecidableEq M] {α : Type v} [Field α] [StarRing α] [DecidableEq α] {γ : Type w}
  [LinearOrder γ] {b : Nat} {E : IntCode α} {A P : TMat M} {mag : α → γ} {dv : α → α → α} {big : α → Bool}
  {ib mpt : Nat}

/-- The descriptors of a factorization: matrix `A`, pivot array `P`. -/
structure LuOK (b : Nat) (A P : TMat M) (ib mpt : Nat) : Prop where
  a : A.Al b
  p : P.Al b
  ne : A.id ≠ P.id
  Pm : P.d.m = min A.d.m A.d.n
  Pn : P.d.n = 1
  hib : 0 < ib
  hmpt : 0 < mpt

theorem LuOK.cfg (h : LuOK b A P ib mpt) {k : Nat} (hk : k < min A.d.mt A.d.nt) :
    (getrfCfg ib mpt A k).OK := by
  refine ⟨by simp only [getrfCfg, h.a.mb]; exact h.a.pos, h.hib, ?_, ?_⟩
  · simp only [getrfCfg]
    have := h.hmpt
    omega
  · simp only [getrfCfg]
    rw [h.a.mb, h.a.nview (by omega)]
    exact Layout.tdim_le

theorem num_toPS (h : LuOK b A P ib mpt) (k : Nat) (s : Store (M × Nat × Nat) α) (r c : Nat) :
    num (getrfCfg ib mpt A k) (toPS A k s) r c = A.el s (k * b + r) (k * b + c) := by
  simp only [num, toPS, getrfCfg, h.a.mb, h.a.nb, divmod]

theorem LuOK.step_m (h : LuOK b A P ib mpt) {k : Nat} (hk : k < min A.d.mt A.d.nt) : k * b < A.d.m :=
  h.a.lt_mt.mp (by omega)
theorem LuOK.step_n (h : LuOK b A P ib mpt) {k : Nat} (hk : k < min A.d.mt A.d.nt) : k * b < A.d.n :=
  h.a.lt_nt.mp (by omega)

theorem LuOK.nv (h : LuOK b A P ib mpt) {k : Nat} (hk : k < A.d.nt) :
    A.d.nview k = min b (A.d.n - k * b) := by
  rw [h.a.nview hk]; rfl

theorem LuOK.mv (h : LuOK b A P ib mpt) {k : Nat} (hk : k < A.d.mt) :
    A.d.mview k = min b (A.d.m - k * b) := by
  rw [h.a.mview hk]; rfl

/-- Effect of panel and adjustment together. -/
theorem panel_eff (h : LuOK b A P ib mpt) {k : Nat} (hk : k < min A.d.mt A.d.nt)
    (d d' : List ((M × Nat × Nat) × Bool)) (s : Store (M × Nat × Nat) α) :
    let s' := (adjustT d' E A P k).run ((panelT d E mag dv big ib mpt A P k).run s)
    let o := panelOut mag dv big ib mpt A k s
    (∀ r c, k * b ≤ r → r < A.d.m → k * b ≤ c → c < k * b + A.d.nview k →
      A.el s' r c = num (getrfCfg ib mpt A k) o (r - k * b) (c - k * b)) ∧
    (∀ r c, ¬ (k * b ≤ r ∧ r < A.d.m ∧ k * b ≤ c ∧ c < k * b + A.d.nview k) → A.el s' r c = A.el s r c) ∧
    (∀ i, k * b ≤ i → i < min A.d.m (k * b + A.d.nview k) →
      E.dec (P.el s' i 0) = pivv o (i - k * b) + k * b) ∧
    (∀ i, ¬ (k * b ≤ i ∧ i < min A.d.m (k * b + A.d.nview k)) → P.el s' i 0 = P.el s i 0) ∧
    (∀ x, x.1 ≠ A.id → x.1 ≠ P.id → s' x = s x) := by
  have hb := h.a.pos
  have hA1 : 0 < A.d.mb := by rw [h.a.mb]; exact hb
  have hA2 : 0 < A.d.nb := by rw [h.a.nb]; exact hb
  have hP1 : 0 < P.d.mb := by rw [h.p.mb]; exact hb
  have hP2 : 0 < P.d.nb := by rw [h.p.nb]; exact hb
  intro s' o
  set s1 := (panelT d E mag dv big ib mpt A P k).run s with hs1
  have a1 : ∀ r c, A.el s' r c = A.el s1 r c := fun r c => gop_el_ne s1 h.ne r c
  have hreg : ∀ R r c, ¬ P.reg R (A.at' (r / A.d.mb) (c / A.d.nb)) (r % A.d.mb) (c % A.d.nb) := by
    intro R r c hr; exact h.ne hr.1
  have hreg' : ∀ R r c, ¬ A.reg R (P.at' (r / P.d.mb) (c / P.d.nb)) (r % P.d.mb) (c % P.d.nb) := by
    intro R r c hr; exact h.ne hr.1.symm
  refine ⟨?_, ?_, ?_, ?_, ?_⟩
  · intro r c h1 h2 h3 h4
    rw [a1, hs1]
    unfold TMat.el
    rw [TTask.run_wr _ _ (Or.inl ((A.reg_at hA1 hA2 _ r c).mpr (by rw [h.a.mb, h.a.nb]; exact ⟨h1, h2, h3, h4⟩)))]
    simp only [panelT]
    rw [if_pos TMat.at'_id, A.row_at, A.col_at, h.a.mb, h.a.nb]
  · intro r c hn
    rw [a1, hs1]
    unfold TMat.el
    rw [TTask.run_frame]
    rintro (hw | hw)
    · rw [A.reg_at hA1 hA2, h.a.mb, h.a.nb] at hw; exact hn hw
    · exact hreg _ _ _ hw
  · intro i h1 h2
    have e1 : P.el s' i 0 = E.enc (E.dec (P.el s1 i 0) + k * A.d.mb) :=
      gop_in hP1 hP2 s1 (by rw [h.a.mb]; exact ⟨h1, h2, rfl⟩)
    have e2 : P.el s1 i 0 = E.enc (pivv o (i - k * b)) := by
      rw [hs1]
      unfold TMat.el
      rw [TTask.run_wr _ _ (Or.inr ((P.reg_at hP1 hP2 _ i 0).mpr (by rw [h.a.mb]; exact ⟨h1, h2, rfl⟩)))]
      simp only [panelT]
      rw [if_neg (by rw [TMat.at'_id]; exact h.ne.symm), P.row_at, h.a.mb]
    rw [e1, E.dec_enc, e2, E.dec_enc, h.a.mb]
  · intro i hn
    rw [show P.el s' i 0 = P.el s1 i 0 from gop_out hP1 hP2 s1 (by rw [h.a.mb]; exact fun hh => hn ⟨hh.1, hh.2.1⟩), hs1]
    unfold TMat.el
    rw [TTask.run_frame]
    rintro (hw | hw)
    · exact hreg' _ _ _ hw
    · rw [P.reg_at hP1 hP2, h.a.mb] at hw; exact hn ⟨hw.1, hw.2.1⟩
  · intro x h1 h2
    rw [show s' x = s1 x from gop_ne s1 h2, hs1]
    funext i j
    apply TTask.run_frame
    rintro (hw | hw)
    · exact h1 hw.1
    · exact h2 hw.1

/-- Effect of the interchanges, when the pivots are in range. -/
theorem swpRows_eff (hA : A.Al b) (d : List ((M × Nat × Nat) × Bool)) {lo c0 c1 k1 k2 : Nat} {fwd : Bool}
    (s : Store (M × Nat × Nat) α) :
    let s' := (swpRows d E A P lo c0 c1 fwd k1 k2).run s
    (∀ r c, lo ≤ r → r < A.d.m → c0 ≤ c → c < c1 →
      A.el s' r c = A.el s (permL (swpOrd fwd k1 k2) (pivAt E P lo A.d.m s) r) c) ∧
    (∀ r c, ¬ (lo ≤ r ∧ r < A.d.m ∧ c0 ≤ c ∧ c < c1) → A.el s' r c = A.el s r c) ∧
    (∀ x, x.1 ≠ A.id → s' x = s x) := by
  have hA1 : 0 < A.d.mb := by rw [hA.mb]; exact hA.pos
  have hA2 : 0 < A.d.nb := by rw [hA.nb]; exact hA.pos
  refine ⟨?_, ?_, ?_⟩
  · intro r c h1 h2 h3 h4
    refine Eq.trans (gop_in (R := fun r c => lo ≤ r ∧ r < A.d.m ∧ c0 ≤ c ∧ c < c1) hA1 hA2 s ⟨h1, h2, h3, h4⟩) ?_
    rw [interch_permL]
  · intro r c hn; exact gop_out hA1 hA2 s hn
  · intro x hx; exact gop_ne s hx

/-- Effect of one update task. -/
theorem upd_eff (hdv : IsDiv dv) (h : LuOK b A P ib mpt) {k n : Nat} (hk : k < A.d.mt) (hkn : k < n)
    (hn : n < A.d.nt) (rg : Bool) (s : Store (M × Nat × Nat) α) {p : Nat → Nat}
    (hp : ∀ i, k * b ≤ i → i < min A.d.m (k * b + b) → E.dec (P.el s i 0) - 1 = p i ∧ i ≤ p i ∧ p i < A.d.m) :
    let s' := (updT rg E dv A P k n).run s
    (∀ r c, k * b ≤ r → r < A.d.m → n * b ≤ c → c < n * b + A.d.nview n →
      A.el s (perm p (k * b) (min A.d.m (k * b + b) - k * b) r) c =
        ∑ l ∈ Ico (k * b) (min r (k * b + b)), A.el s r l * A.el s' l c + A.el s' r c) ∧
    (∀ r c, ¬ (k * b ≤ r ∧ r < A.d.m ∧ n * b ≤ c ∧ c < n * b + A.d.nview n) → A.el s' r c = A.el s r c) ∧
    (∀ x, x.1 ≠ A.id → s' x = s x) := by
  have hb := h.a.pos
  intro s'
  have hnv := h.nv hn
  have hmv := h.mv hk
  have hkm := h.a.lt_mt.mp hk
  have hnn := h.a.lt_nt.mp hn
  have hkb : k * b + b ≤ n * b := by
    have : (k + 1) * b ≤ n * b := Nat.mul_le_mul_right _ hkn
    rw [Nat.add_mul, Nat.one_mul] at this; exact this
  -- interchanges
  set s1 := (swpRows [] E A P (k * A.d.mb) (n * A.d.nb) (n * A.d.nb + A.d.nview n) true (k * A.d.mb + 1)
      (min (k * A.d.mb + A.d.mb) A.d.m)).run s with hs1
  obtain ⟨w1, w2, w3⟩ := swpRows_eff (E := E) (P := P) (α := α) h.a [] (lo := k * A.d.mb) (c0 := n * A.d.nb)
    (c1 := n * A.d.nb + A.d.nview n) (k1 := k * A.d.mb + 1) (k2 := min (k * A.d.mb + A.d.mb) A.d.m) (fwd := true) s
  rw [← hs1] at w1 w2 w3
  rw [h.a.mb, h.a.nb] at w1 w2
  have hperm : permL (swpOrd true (k * b + 1) (min (k * b + b) A.d.m)) (pivAt E P (k * b) A.d.m s) =
      perm p (k * b) (min A.d.m (k * b + b) - k * b) := by
    unfold swpOrd
    rw [if_pos rfl, permL_range', Nat.add_sub_cancel, Nat.min_comm]
    apply perm_congr
    intro i h1 h2
    obtain ⟨e1, e2, e3⟩ := hp i h1 (by omega)
    rw [pivAt_of (by rw [e1]; omega), e1]
  rw [hperm] at w1
  -- solve
  set s2 := (coreTrsm dv .left .lower .noTrans .unit (A.d.mview k) (A.d.nview n) 1 (A.at' k k) (A.at' k n)).run s1 with hs2
  have t1 : ∀ i j, i < A.d.mview k → j < A.d.nview n →
      s1 (A.at' k n) i j = ∑ l ∈ range i, s1 (A.at' k k) i l * s2 (A.at' k n) l j + s2 (A.at' k n) i j := by
    intro i j hi hj
    have hrun : ∀ l, l < A.d.mview k → s2 (A.at' k n) l j = trsmK dv .left .lower .noTrans .unit
        (A.d.mview k) (A.d.nview n) 1 (s1 (A.at' k k)) (s1 (A.at' k n)) l j := fun l hl => coreTrsm_run s1 ⟨hl, hj⟩
    rw [hrun i hi, trsmLLU hdv (m := A.d.mview k) (n := A.d.nview n) (s1 (A.at' k k)) (s1 (A.at' k n)) hi]
    congr 1
    refine sum_congr rfl fun l hl => ?_
    rw [mem_range] at hl
    rw [hrun l (by omega)]
  have t2 : ∀ x, x ≠ A.at' k n → s2 x = s1 x := fun x hx => op1_ne s1 hx
  have t3 : ∀ i j, ¬ (i < A.d.mview k ∧ j < A.d.nview n) → s2 (A.at' k n) i j = s1 (A.at' k n) i j := by
    intro i j hij
    rw [hs2]; unfold coreTrsm; rw [op1_self, paste_out hij]
  -- products
  have hs' : s' = texec ((span (k + 1) A.d.mt).flatMap fun m =>
    [coreGemm .noTrans .noTrans (A.d.mview m) (A.d.nview n) A.d.nb (-1) (A.at' m k) (A.at' k n) 1 (A.at' m n)]) s2 := by
    show (updT rg E dv A P k n).run s = _
    unfold updT
    rw [seqT_run]
    unfold updBody
    rw [texec_append]
    rfl
  have hW : ∀ m ∈ span (k + 1) A.d.mt, Writes (fun t => t = A.at' m n)
      [coreGemm (α := α) .noTrans .noTrans (A.d.mview m) (A.d.nview n) A.d.nb (-1) (A.at' m k) (A.at' k n) 1 (A.at' m n)] :=
    fun m _ => writes_op2 rfl
  have g1 : ∀ m, k < m → m < A.d.mt → ∀ i j, i < A.d.mview m → j < A.d.nview n →
      s' (A.at' m n) i j = s2 (A.at' m n) i j - ∑ l ∈ range b, s2 (A.at' m k) i l * s2 (A.at' k n) l j := by
    intro m h1 h2 i j hi hj
    have hm : m ∈ span (k + 1) A.d.mt := mem_span.mpr ⟨h1, h2⟩
    rw [hs', par (o := fun m => A.at' m n) nodup_span (fun p _ q _ e => (TMat.at'_inj.mp e).1) ?_ hW s2 hm]
    · simp only [texec_cons, texec_nil]
      rw [gemm_run s2 ⟨hi, hj⟩, h.a.nb]
      simp only [opE]
      ring
    · intro p hp
      rw [mem_span] at hp
      refine gemm_within (Or.inl ?_) (Or.inl ?_) (Or.inr rfl)
      · intro q _ e; have := (TMat.at'_inj.mp e).2; omega
      · intro q hq e; rw [mem_span] at hq; have := (TMat.at'_inj.mp e).1; omega
  have g2 : ∀ x, (∀ m, k < m → m < A.d.mt → x ≠ A.at' m n) → s' x = s2 x := by
    intro x hx
    rw [hs']
    exact par_frame (o := fun m => A.at' m n) hW s2 (fun q hq => by rw [mem_span] at hq; exact hx q hq.1 hq.2)
  have g3 : ∀ m, k < m → m < A.d.mt → ∀ i j, ¬ (i < A.d.mview m ∧ j < A.d.nview n) →
      s' (A.at' m n) i j = s2 (A.at' m n) i j := by
    intro m h1 h2 i j hij
    have hm : m ∈ span (k + 1) A.d.mt := mem_span.mpr ⟨h1, h2⟩
    rw [hs']
    have : WritesE (fun x i j => ∀ m', k < m' → m' < A.d.mt → x = A.at' m' n → i < A.d.mview m' ∧ j < A.d.nview n)
      ((span (k + 1) A.d.mt).flatMap fun m => [coreGemm (α := α) .noTrans .noTrans (A.d.mview m) (A.d.nview n) A.d.nb (-1)
        (A.at' m k) (A.at' k n) 1 (A.at' m n)]) := by
      refine WritesE.flatMap fun q _ => WritesE.single ?_
      rintro x i j ⟨rfl, hij⟩ m' _ _ e
      rw [← (TMat.at'_inj.mp e).1]; exact hij
    exact this.frame s2 (fun hh => hij (hh m h1 h2 rfl))
  -- global view
  have sub1 : ∀ {t i x : Nat}, t * b + i < x → i < b → i < min b (x - t * b) := by intros; omega
  have colj : ∀ c, n * b ≤ c → c < n * b + A.d.nview n → ∃ j, j < A.d.nview n ∧ j < b ∧ c = n * b + j := by
    intro c h1 h2
    exact ⟨c - n * b, by omega, by omega, by omega⟩
  have pan : ∀ r l, k * b ≤ l → l < k * b + b → A.el s' r l = A.el s r l := by
    intro r l h1 h2
    have hl : l / b = k := by
      rw [show l = k * b + (l - k * b) by omega]; exact div_of_tile (by omega)
    rw [← w2 r l (by omega)]
    unfold TMat.el
    rw [h.a.mb, h.a.nb, hl, g2 _ (fun m _ _ e => by have := (TMat.at'_inj.mp e).2; omega),
      t2 _ (fun e => by have := (TMat.at'_inj.mp e).2; omega)]
  have pan1 : ∀ r l, k * b ≤ l → l < k * b + b → A.el s1 r l = A.el s r l := by
    intro r l h1 h2
    rw [w2 r l (by omega)]
  refine ⟨?_, ?_, ?_⟩
  · intro r c h1 h2 h3 h4
    obtain ⟨j, hj, hjb, rfl⟩ := colj c h3 h4
    rw [← w1 r _ h1 h2 (by omega) (by omega)]
    by_cases hrk : r < k * b + b
    · -- top block
      obtain ⟨i, hi, rfl⟩ : ∃ i, i < b ∧ r = k * b + i := ⟨r - k * b, by omega, by omega⟩
      have hi' : i < A.d.mview k := by rw [hmv]; omega
      have e1 := t1 i j hi' hj
      rw [Nat.min_eq_left (by omega), sum_Ico_eq_sum_range, Nat.add_sub_cancel_left,
        h.a.el_tile s1 hi hjb, e1, h.a.el_tile s' hi hjb,
        g2 _ (fun m h1 _ e => by have := (TMat.at'_inj.mp e).1; omega)]
      congr 1
      refine sum_congr rfl fun l hl => ?_
      rw [mem_range] at hl
      rw [h.a.el_tile s' (by omega) hjb, ← pan1 _ _ (by omega) (by omega), h.a.el_tile s1 hi (by omega),
        g2 _ (fun m h1 _ e => by have := (TMat.at'_inj.mp e).1; omega)]
    · have hrk : k * b + b ≤ r := by omega
      set m := r / b with hm
      set i := r % b with hi
      have hri : r = m * b + i := (divmod r b).symm
      have hib : i < b := Nat.mod_lt _ hb
      have hkm' : k < m := by
        rw [hm, Nat.lt_iff_add_one_le, Nat.le_div_iff_mul_le hb, Nat.add_mul, Nat.one_mul]; exact hrk
      have hmt : m < A.d.mt := h.a.row_mt h2
      have hiv : i < A.d.mview m := by rw [h.mv hmt]; omega
      have e1 := g1 m hkm' hmt i j hiv hj
      rw [Nat.min_eq_right (by omega), sum_Ico_eq_sum_range, Nat.add_sub_cancel_left, hri,
        h.a.el_tile s1 hib hjb, h.a.el_tile s' hib hjb, e1,
        t2 _ (fun e => by have := (TMat.at'_inj.mp e).1; omega)]
      have : ∀ l ∈ range b, s2 (A.at' m k) i l * s2 (A.at' k n) l j =
          A.el s (m * b + i) (k * b + l) * A.el s' (k * b + l) (n * b + j) := by
        intro l hl
        rw [mem_range] at hl
        rw [h.a.el_tile s' hl hjb, ← pan1 _ _ (by omega) (by omega), h.a.el_tile s1 hib hl,
          g2 _ (fun m h1 _ e => by have := (TMat.at'_inj.mp e).1; omega),
          t2 _ (fun e => by have := (TMat.at'_inj.mp e).2; omega)]
      rw [sum_congr rfl this]
      ring
  · intro r c hno
    rw [← w2 r c hno]
    by_cases hc : c / b = n
    · have hc' : c = n * b + c % b := by rw [← hc]; exact (divmod c b).symm
      have hcb : c % b < b := Nat.mod_lt _ hb
      have hri : r = r / b * b + r % b := (divmod r b).symm
      have hrb : r % b < b := Nat.mod_lt _ hb
      rw [hri, hc', h.a.el_tile s' hrb hcb, h.a.el_tile s1 hrb hcb]
      by_cases h1 : k < r / b ∧ r / b < A.d.mt
      · rw [g3 _ h1.1 h1.2, t2 _ (fun e => by have := (TMat.at'_inj.mp e).1; omega)]
        rintro ⟨h3, h4⟩
        apply hno
        rw [h.mv h1.2] at h3
        have : (k + 1) * b ≤ r / b * b := Nat.mul_le_mul_right _ h1.1
        rw [Nat.add_mul, Nat.one_mul] at this
        refine ⟨by omega, by omega, by omega, by omega⟩
      · rw [g2 _ (fun m a1 a2 e => h1 (by rw [(TMat.at'_inj.mp e).1]; exact ⟨a1, a2⟩))]
        by_cases h2 : r / b = k
        · rw [h2, t3]
          rintro ⟨h3, h4⟩
          apply hno
          rw [hmv] at h3
          rw [h2] at hri
          refine ⟨by omega, by omega, by omega, by omega⟩
        · rw [t2 _ (fun e => h2 (TMat.at'_inj.mp e).1)]
    · unfold TMat.el
      rw [h.a.mb, h.a.nb, g2 _ (fun m _ _ e => hc (TMat.at'_inj.mp e).2),
        t2 _ (fun e => hc (TMat.at'_inj.mp e).2)]
  · intro x hx
    rw [g2 x (fun m _ _ e => hx (by rw [e]; rfl)), t2 x (fun e => hx (by rw [e]; rfl)), w3 x hx]

end effects

end Verif.Tile

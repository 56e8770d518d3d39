/-
C30, C31: copy, set, scale and add, end to end.
-/
import Verif.AuxNests
import Verif.Props.Rank

namespace Verif.Props

open Verif.Layout Verif.Tile

universe v

/-- Dimensions of `pA` and `pB` in the routines of this file (compute/zlacpy.c:124-140,
compute/zgeadd.c:119-131, 163-177, compute/ztradd.c:132-142, 172-185): `op(A)` and `B` are
`m × n`. -/
def auxDims (t : Trans) (m n : Nat) : Nat → Nat × Nat
  | 0 => if t = .noTrans then (m, n) else (n, m)
  | 1 => (m, n)
  | _ => (0, 0)

/-- One array, `m × n`. -/
def oneDims (m n : Nat) : Nat → Nat × Nat
  | 0 => (m, n)
  | _ => (0, 0)

/-- The leading-dimension checks (compute/zlacpy.c:110-117, compute/zgeadd.c:133-144,
compute/ztradd.c:144-155). -/
def AuxLd (t : Trans) (m n lda ldb : Nat) : Prop :=
  max 1 (if t = .noTrans then m else n) ≤ lda ∧ max 1 m ≤ ldb

theorem aux_ld {t : Trans} {m n lda ldb : Nat} (h : AuxLd t m n lda ldb) :
    ∀ a, (auxDims t m n a).1 ≤ ld2 lda ldb a := by
  obtain ⟨h1, h2⟩ := h
  intro a
  match a with
  | 0 => simp only [auxDims, ld2]; split at h1 <;> rename_i hh <;> simp only [hh, if_true, if_false] <;> omega
  | 1 => simp only [auxDims, ld2]; omega
  | k+2 => simp [auxDims]

theorem one_ld {m n lda : Nat} (h : max 1 m ≤ lda) : ∀ a, (oneDims m n a).1 ≤ ld2 lda 0 a := by
  intro a
  match a with
  | 0 => simp only [oneDims, ld2]; omega
  | k+1 => simp [oneDims]

theorem auxDims_1m {nb : Nat} {t : Trans} {m n : Nat} : (tMat nb (auxDims t m n) 1).d.m =
    if t = .noTrans then (tMat nb (auxDims t m n) 0).d.m else (tMat nb (auxDims t m n) 0).d.n := by
  simp only [tMat, TMat.full, general, auxDims]; split <;> rfl

theorem auxDims_1n {nb : Nat} {t : Trans} {m n : Nat} : (tMat nb (auxDims t m n) 1).d.n =
    if t = .noTrans then (tMat nb (auxDims t m n) 0).d.n else (tMat nb (auxDims t m n) 0).d.m := by
  simp only [tMat, TMat.full, general, auxDims]; split <;> rfl

section
variable {α : Type v} [CommRing α] [StarRing α] [DecidableEq α]

/-- `plasma_omp_zlacpy` (compute/zlacpy.c:234-288) with legal arguments. -/
def ompZlacpy {M : Type} (sel : Stor) (t : Trans) (A B : TMat M) : List (TTask (M × Nat × Nat) α) :=
  if min A.d.m A.d.n = 0 then [] else pzlacpy sel t A B

/-- Tasks created by `plasma_zlacpy` (compute/zlacpy.c:119-179) with legal arguments.  A
transposed copy is accepted for `m = n` only (compute/zlacpy.c:105-108). -/
def zlacpy (nb : Nat) (sel : Stor) (t : Trans) (m n : Nat) : List (TTask (Buf × Nat × Nat) α) :=
  if min n m = 0 then []
  else driver nb (auxDims .noTrans m n) [0, 1]
    (ompZlacpy sel t (tMat nb (auxDims .noTrans m n) 0) (tMat nb (auxDims .noTrans m n) 1)) [1]

/-- `plasma_omp_zlaset` (compute/zlaset.c:107-150) with legal arguments. -/
def ompZlaset {M : Type} (sel : Stor) (alpha beta : α) (A : TMat M) : List (TTask (M × Nat × Nat) α) :=
  if min A.d.m A.d.n = 0 then [] else pzlaset sel alpha beta A

/-- Tasks created by `plasma_zlaset` (compute/zlaset.c:55-104) with legal arguments. -/
def zlaset (nb : Nat) (sel : Stor) (m n : Nat) (alpha beta : α) : List (TTask (Buf × Nat × Nat) α) :=
  if min n m = 0 then []
  else driver nb (oneDims m n) [0] (ompZlaset sel alpha beta (tMat nb (oneDims m n) 0)) [0]

/-- `plasma_omp_zlascl` (compute/zlascl.c:117-180) with legal arguments. -/
def ompZlascl {M : Type} (dv : α → α → α) (sel : Stor) (cfrom cto : α) (A : TMat M) :
    List (TTask (M × Nat × Nat) α) :=
  if min A.d.m A.d.n = 0 then [] else pzlascl dv sel cfrom cto A

/-- Tasks created by `plasma_zlascl` (compute/zlascl.c:63-114) with legal arguments. -/
def zlascl (nb : Nat) (dv : α → α → α) (sel : Stor) (cfrom cto : α) (m n : Nat) :
    List (TTask (Buf × Nat × Nat) α) :=
  if min n m = 0 then []
  else driver nb (oneDims m n) [0] (ompZlascl dv sel cfrom cto (tMat nb (oneDims m n) 0)) [0]

/-- `plasma_omp_zgeadd` (compute/zgeadd.c:268-320) and `plasma_omp_ztradd`
(compute/ztradd.c:283-341) with legal arguments. -/
def ompZadd {M : Type} (sel : Stor) (t : Trans) (alpha : α) (A : TMat M) (beta : α) (B : TMat M) :
    List (TTask (M × Nat × Nat) α) :=
  if (alpha = 0 ∨ (if t = .noTrans then A.d.m else A.d.n) = 0) ∧ beta = 1 then []
  else match sel with
    | none => pzgeadd t alpha A beta B
    | some u => pztradd u t alpha A beta B

/-- Tasks created by `plasma_zgeadd` (compute/zgeadd.c:146-211, `sel = none`) and
`plasma_ztradd` (compute/ztradd.c:157-221, `sel = some uplo`) with legal arguments.  Both
arrays are translated back. -/
def zadd (nb : Nat) (sel : Stor) (t : Trans) (m n : Nat) (alpha beta : α) :
    List (TTask (Buf × Nat × Nat) α) :=
  if m = 0 ∨ n = 0 ∨ (alpha = 0 ∧ beta = 1) then []
  else driver nb (auxDims t m n) [0, 1]
    (ompZadd sel t alpha (tMat nb (auxDims t m n) 0) beta (tMat nb (auxDims t m n) 1)) [0, 1]

end

variable {α : Type v} [CommRing α] [StarRing α] [DecidableEq α]

omit [DecidableEq α] in
theorem ompZlacpy_good {nb : Nat} (hnb : 0 < nb) {sel : Stor} {t : Trans} {m n : Nat} {ld : Nat → Nat}
    (hsq : t = .noTrans ∨ m = n) :
    Good (evalid (drvEnv nb (auxDims .noTrans m n) ld))
      (ompZlacpy (α := α) sel t (tMat nb (auxDims .noTrans m n) 0) (tMat nb (auxDims .noTrans m n) 1)) := by
  refine Good.ite (fun _ => Good.nil) (fun _ => pzlacpy_good (fits_t hnb 0) (fits_t hnb 1) ?_ ?_ hsq)
  all_goals
    rcases hsq with h | h
    · rw [if_pos h]; rfl
    · split
      · rfl
      · subst h; rfl

/-- **C30, copy.** `plasma_zlacpy` changes exactly the selected part of `pB` (for a
transposed copy, the transpose of the selected part), to the corresponding entries of
`op(A)`; `pA` is unchanged. -/
theorem C30_lacpy {nb : Nat} (hnb : 0 < nb) (sel : Stor) (t : Trans) (m n lda ldb : Nat)
    (hsq : t = .noTrans ∨ m = n) (hl : AuxLd .noTrans m n lda ldb) (mem mem' : Buf × Nat → α)
    (h : Exec (drvEnv nb (auxDims .noTrans m n) (ld2 lda ldb)) (zlacpy nb sel t m n) mem mem') :
    (∀ i j, i < m → j < n → mem' (.usr 1, i + j * ldb) =
      if stOK (stTr t sel) i j then opE t (fun p q => mem (.usr 0, p + q * lda)) i j
      else mem (.usr 1, i + j * ldb)) ∧
    (∀ x, mem' (.usr 0, x) = mem (.usr 0, x)) ∧
    (∀ x, (∀ i j, i < m → j < n → x ≠ i + j * ldb) → mem' (.usr 1, x) = mem (.usr 1, x)) := by
  unfold zlacpy at h
  split at h
  · rename_i hq
    rw [h.nil]
    exact ⟨fun i j hi hj => by omega, fun _ => rfl, fun _ _ => rfl⟩
  · rename_i hq
    have ht1 : OnTiles (ompZlacpy (α := α) sel t (tMat nb (auxDims .noTrans m n) 0) (tMat nb (auxDims .noTrans m n) 1)) :=
      Writes.ite (fun _ => Writes.nil) (fun _ => (pzlacpy_writes (al_t hnb 0)).mono fun _ hx => ⟨1, hx⟩)
    obtain ⟨s, hin, hout, h3, h4⟩ := driver_correct hnb (aux_ld hl) (by simp) (by simp)
      (ompZlacpy_good hnb hsq) ht1 h
    refine ⟨fun i j hi hj => ?_, h3 0 (by simp), fun x hx => h4 1 x hx⟩
    have homp : ompZlacpy (α := α) sel t (tMat nb (auxDims .noTrans m n) 0) (tMat nb (auxDims .noTrans m n) 1) =
        pzlacpy sel t (tMat nb (auxDims .noTrans m n) 0) (tMat nb (auxDims .noTrans m n) 1) := by
      unfold ompZlacpy; rw [if_neg]; rw [Nat.min_comm]; exact hq
    have hA : ∀ i j, i < m → j < n →
        (tMat nb (auxDims .noTrans m n) 0).el s i j = mem (.usr 0, i + j * lda) := hin 0 (by simp)
    have hB : ∀ i j, i < m → j < n →
        (tMat nb (auxDims .noTrans m n) 1).el s i j = mem (.usr 1, i + j * ldb) := hin 1 (by simp)
    have ho := hout 1 (by simp) i j hi hj
    simp only [ld2] at ho
    rw [ho, homp, pzlacpy_el (al_t hnb 0) (al_t hnb 1) (by simp [tMat, TMat.full]) ?_ ?_ hsq s hi hj, hB i j hi hj]
    · refine if_congr Iff.rfl ?_ rfl
      rcases hsq with ht | hmn
      · rw [ht]; exact hA i j hi hj
      · subst hmn
        cases t <;> simp only [opE] <;> rw [hA _ _ (by assumption) (by assumption)]
    all_goals
      rcases hsq with h | h
      · rw [if_pos h]; rfl
      · split
        · rfl
        · subst h; rfl

omit [CommRing α] [StarRing α] [DecidableEq α] in
theorem ompZlaset_good {nb : Nat} (hnb : 0 < nb) {sel : Stor} {m n : Nat} {ld : Nat → Nat} {alpha beta : α} :
    Good (evalid (drvEnv nb (oneDims m n) ld)) (ompZlaset sel alpha beta (tMat nb (oneDims m n) 0)) :=
  Good.ite (fun _ => Good.nil) (fun _ => pzlaset_good ((fits_t hnb 0).mono fun _ _ _ => trivial))

omit [CommRing α] [StarRing α] [DecidableEq α] in
/-- **C30, set.** `plasma_zlaset` sets the selected part of `pA` to `alpha`, its diagonal
to `beta`, and changes nothing else. -/
theorem C30_laset {nb : Nat} (hnb : 0 < nb) (sel : Stor) (m n lda : Nat) (hl : max 1 m ≤ lda) (alpha beta : α)
    (mem mem' : Buf × Nat → α)
    (h : Exec (drvEnv nb (oneDims m n) (ld2 lda 0)) (zlaset nb sel m n alpha beta) mem mem') :
    (∀ i j, i < m → j < n → mem' (.usr 0, i + j * lda) =
      if stOK sel i j then (if i = j then beta else alpha) else mem (.usr 0, i + j * lda)) ∧
    (∀ x, (∀ i j, i < m → j < n → x ≠ i + j * lda) → mem' (.usr 0, x) = mem (.usr 0, x)) := by
  unfold zlaset at h
  split at h
  · rename_i hq
    rw [h.nil]
    exact ⟨fun i j hi hj => by omega, fun _ _ => rfl⟩
  · rename_i hq
    have ht1 : OnTiles (ompZlaset sel alpha beta (tMat nb (oneDims m n) 0)) :=
      Writes.ite (fun _ => Writes.nil) (fun _ => (pzlaset_writes (al_t hnb 0)).mono fun _ hx => ⟨0, hx⟩)
    obtain ⟨s, hin, hout, -, h4⟩ := driver_correct hnb (one_ld hl) (by simp) (by simp) (ompZlaset_good hnb) ht1 h
    refine ⟨fun i j hi hj => ?_, fun x hx => h4 0 x hx⟩
    have homp : ompZlaset sel alpha beta (tMat nb (oneDims m n) 0) =
        pzlaset sel alpha beta (tMat nb (oneDims m n) 0) := by
      unfold ompZlaset; rw [if_neg]; rw [Nat.min_comm]; exact hq
    have hA : (tMat nb (oneDims m n) 0).el s i j = mem (.usr 0, i + j * lda) := hin 0 (by simp) i j hi hj
    have ho := hout 0 (by simp) i j hi hj
    simp only [ld2] at ho
    rw [ho, homp, pzlaset_el (al_t hnb 0) s hi hj, hA]

omit [StarRing α] [DecidableEq α] in
theorem ompZlascl_good {nb : Nat} (hnb : 0 < nb) {dv : α → α → α} {sel : Stor} {m n : Nat} {ld : Nat → Nat}
    {cfrom cto : α} :
    Good (evalid (drvEnv nb (oneDims m n) ld)) (ompZlascl dv sel cfrom cto (tMat nb (oneDims m n) 0)) :=
  Good.ite (fun _ => Good.nil) (fun _ => pzlascl_good ((fits_t hnb 0).mono fun _ _ _ => trivial))

/-- **C30, scale.** `plasma_zlascl` multiplies the selected part of `pA` by `cto / cfrom`
and changes nothing else. -/
theorem C30_lascl {α : Type v} [Field α] {nb : Nat} (hnb : 0 < nb) {dv : α → α → α} (hdv : IsDiv dv) (sel : Stor) (m n lda : Nat) (hl : max 1 m ≤ lda)
    (cfrom cto : α) (hc : cfrom ≠ 0) (mem mem' : Buf × Nat → α)
    (h : Exec (drvEnv nb (oneDims m n) (ld2 lda 0)) (zlascl nb dv sel cfrom cto m n) mem mem') :
    (∀ i j, i < m → j < n → mem' (.usr 0, i + j * lda) =
      if stOK sel i j then mem (.usr 0, i + j * lda) * cto / cfrom else mem (.usr 0, i + j * lda)) ∧
    (∀ x, (∀ i j, i < m → j < n → x ≠ i + j * lda) → mem' (.usr 0, x) = mem (.usr 0, x)) := by
  unfold zlascl at h
  split at h
  · rename_i hq
    rw [h.nil]
    exact ⟨fun i j hi hj => by omega, fun _ _ => rfl⟩
  · rename_i hq
    have ht1 : OnTiles (ompZlascl dv sel cfrom cto (tMat nb (oneDims m n) 0)) :=
      Writes.ite (fun _ => Writes.nil) (fun _ => (pzlascl_writes (al_t hnb 0)).mono fun _ hx => ⟨0, hx⟩)
    obtain ⟨s, hin, hout, -, h4⟩ := driver_correct hnb (one_ld hl) (by simp) (by simp) (ompZlascl_good hnb) ht1 h
    refine ⟨fun i j hi hj => ?_, fun x hx => h4 0 x hx⟩
    have homp : ompZlascl dv sel cfrom cto (tMat nb (oneDims m n) 0) =
        pzlascl dv sel cfrom cto (tMat nb (oneDims m n) 0) := by
      unfold ompZlascl; rw [if_neg]; rw [Nat.min_comm]; exact hq
    have hA : (tMat nb (oneDims m n) 0).el s i j = mem (.usr 0, i + j * lda) := hin 0 (by simp) i j hi hj
    have ho := hout 0 (by simp) i j hi hj
    simp only [ld2] at ho
    rw [ho, homp, pzlascl_el (al_t hnb 0) s hi hj, hA, hdv.eq _ _ hc]
    refine if_congr Iff.rfl ?_ rfl
    ring

theorem zadd_tasks {nb : Nat} (hnb : 0 < nb) {sel : Stor} {t : Trans} {m n : Nat} {alpha beta : α} (hm : ¬ m = 0)
    (h : ¬ (alpha = 0 ∧ beta = 1)) :
    ompZadd sel t alpha (tMat nb (auxDims t m n) 0) beta (tMat nb (auxDims t m n) 1) =
      (adIdx sel (tMat nb (auxDims t m n) 1).d.mt (tMat nb (auxDims t m n) 1).d.nt).map
        (adTask sel t alpha (tMat nb (auxDims t m n) 0) beta (tMat nb (auxDims t m n) 1) nb) := by
  have hd : (if t = .noTrans then (tMat nb (auxDims t m n) 0).d.m else (tMat nb (auxDims t m n) 0).d.n) = m := by
    rw [← auxDims_1m]; rfl
  unfold ompZadd
  rw [hd, if_neg (by rintro ⟨h1 | h1, h2⟩; exacts [h ⟨h1, h2⟩, hm h1])]
  cases sel with
  | none => exact pzgeadd_eq (al_t hnb 1)
  | some u => exact pztradd_eq (al_t hnb 1)

theorem zadd_good {nb : Nat} (hnb : 0 < nb) {sel : Stor} {t : Trans} {m n : Nat} {ld : Nat → Nat}
    {alpha beta : α} (hm : ¬ m = 0) (h : ¬ (alpha = 0 ∧ beta = 1)) :
    Good (evalid (drvEnv nb (auxDims t m n) ld))
      (ompZadd sel t alpha (tMat nb (auxDims t m n) 0) beta (tMat nb (auxDims t m n) 1)) := by
  rw [zadd_tasks hnb hm h]
  exact ad_good (fits_t hnb 0) (fits_t hnb 1) auxDims_1m auxDims_1n

/-- **C30, add.** `plasma_zgeadd` (`sel = none`) and `plasma_ztradd` (`sel = some uplo`)
set the selected part of `pB` to `alpha op(A) + beta B` and change nothing else. -/
theorem C30_add {nb : Nat} (hnb : 0 < nb) (sel : Stor) (t : Trans) (m n lda ldb : Nat)
    (hl : AuxLd t m n lda ldb) (alpha beta : α) (mem mem' : Buf × Nat → α)
    (h : Exec (drvEnv nb (auxDims t m n) (ld2 lda ldb)) (zadd nb sel t m n alpha beta) mem mem') :
    (∀ i j, i < m → j < n → mem' (.usr 1, i + j * ldb) =
      if stOK sel i j then
        alpha * opE t (fun p q => mem (.usr 0, p + q * lda)) i j + beta * mem (.usr 1, i + j * ldb)
      else mem (.usr 1, i + j * ldb)) ∧
    (∀ x, mem' (.usr 0, x) = mem (.usr 0, x)) ∧
    (∀ x, (∀ i j, i < m → j < n → x ≠ i + j * ldb) → mem' (.usr 1, x) = mem (.usr 1, x)) := by
  unfold zadd at h
  split at h
  · rename_i hq
    rw [h.nil]
    refine ⟨fun i j hi hj => ?_, fun _ => rfl, fun _ _ => rfl⟩
    rcases hq with hq | hq | ⟨h1, h2⟩
    · omega
    · omega
    · subst h1; subst h2; simp
  · rename_i hq
    obtain ⟨hm0, hn0, hab⟩ : ¬ m = 0 ∧ ¬ n = 0 ∧ ¬ (alpha = 0 ∧ beta = 1) :=
      ⟨fun h => hq (Or.inl h), fun h => hq (Or.inr (Or.inl h)), fun h => hq (Or.inr (Or.inr h))⟩
    have hw : Writes (fun x => x.1 = Buf.til 1)
        (ompZadd sel t alpha (tMat nb (auxDims t m n) 0) beta (tMat nb (auxDims t m n) 1)) := by
      rw [zadd_tasks hnb hm0 hab]; exact ad_writes
    obtain ⟨s, hin, hout, h3, h4⟩ := driver_correct hnb (aux_ld hl) (by simp) (by simp)
      (zadd_good hnb hm0 hab) (hw.mono fun _ hx => ⟨1, hx⟩) h
    have hA := hin 0 (by simp)
    have hB := hin 1 (by simp)
    refine ⟨fun i j hi hj => ?_, ?_, fun x hx => h4 1 x hx⟩
    · have ho := hout 1 (by simp) i j hi hj
      have hB' := hB i j hi hj
      simp only [ld2] at ho hA hB'
      rw [ho, zadd_tasks hnb hm0 hab, ad_el (al_t hnb 0) (al_t hnb 1) (by simp [tMat, TMat.full]) s hi hj, hB']
      refine if_congr Iff.rfl ?_ rfl
      rw [add_comm]
      congr 2
      cases t <;> simp only [opE] <;> rw [hA _ _ (by simpa [auxDims] using by assumption)
        (by simpa [auxDims] using by assumption)]
    · intro x
      by_cases hx : ∃ i j, i < (auxDims t m n 0).1 ∧ j < (auxDims t m n 0).2 ∧ x = i + j * lda
      · obtain ⟨i, j, hi, hj, rfl⟩ := hx
        have ho := hout 0 (by simp) i j hi hj
        have hA' := hA i j hi hj
        simp only [ld2] at ho hA'
        rw [ho, ← hA']
        unfold TMat.el
        rw [hw.frame s (by simp [tMat, TMat.full, TMat.at'])]
      · exact h4 0 x fun i j hi hj he => hx ⟨i, j, hi, hj, he⟩

/-! ### C31 -/

omit [DecidableEq α] in
/-- **C31, partial.** The transposed copy of a lower triangle reads and writes elements of
the lower triangle only, inside the matrix, if `m ≤ n`.  Missing: `m > n`, where it is
false (`C31_outside`).  `plasma_zlacpy` calls the kernel with `m = n` only. -/
theorem C31_inside_partial {M : Type} {t : Trans} (ht : t ≠ .noTrans) {m n : Nat} (h : m ≤ n) (a b : M) :
    (∀ i j, (coreLacpy (α := α) (some .lower) t m n a b).rd a i j → j ≤ i ∧ i < m ∧ j < n) ∧
    (∀ i j, (coreLacpy (α := α) (some .lower) t m n a b).wr b i j → i ≤ j ∧ j < m ∧ i < n) := by
  have hm : ∀ i j, (i, j) ∈ lacpyIdx (some .lower) t m n ↔ i < m ∧ j < n ∧ j ≤ i := fun i j =>
    mem_lacpyIdx (sel := some .lower) (Or.inr (Or.inr h))
  constructor
  · rintro i j ⟨-, hij⟩
    obtain ⟨h1, h2, h3⟩ := (hm i j).mp hij
    exact ⟨h3, h1, h2⟩
  · rintro i j ⟨-, hij⟩
    obtain ⟨⟨p, q⟩, hp, he⟩ := List.mem_map.mp hij
    rw [lacpyDst, if_neg ht] at he
    obtain ⟨rfl, rfl⟩ : q = i ∧ p = j := Prod.mk.inj he
    obtain ⟨h1, h2, h3⟩ := (hm p q).mp hp
    exact ⟨h3, h1, h2⟩

omit [DecidableEq α] in
/-- **C31 is false for `m > n`.** The kernel then reads column `n` of a source with columns
`0..n-1`, and writes row `n` of a destination with rows `0..n-1`; with `ldb = n` its last
write is at `B[n*m]`, one past the end of the destination
(core_blas/core_zlacpy.c:81-83, 100-102: `j <= imin(i, n)`). -/
theorem C31_outside {M : Type} {t : Trans} (ht : t ≠ .noTrans) {m n : Nat} (h : n < m) (a b : M) :
    (coreLacpy (α := α) (some .lower) t m n a b).rd a (m - 1) n ∧
    (coreLacpy (α := α) (some .lower) t m n a b).wr b n (m - 1) ∧ n + (m - 1) * n = n * m := by
  have hm : (m - 1, n) ∈ lacpyIdx (some .lower) t m n := by
    simp only [lacpyIdx, if_neg ht, mem_loop2, List.mem_range]; omega
  refine ⟨⟨rfl, hm⟩, ⟨rfl, List.mem_map.mpr ⟨_, hm, ?_⟩⟩, ?_⟩
  · rw [lacpyDst, if_neg ht]; rfl
  · obtain ⟨m, rfl⟩ : ∃ k, m = k + 1 := ⟨m - 1, by omega⟩
    simp only [Nat.add_sub_cancel]; ring

/-! ### Cases meeting the hypotheses -/

example : ∃ mem', AuxLd .noTrans 5 5 5 6 ∧ Exec (drvEnv 2 (auxDims .noTrans 5 5) (ld2 5 6))
    (zlacpy 2 (some .lower) .conjTrans 5 5) (fun _ => (1 : ℤ)) mem' := by
  obtain ⟨mem', h⟩ := driver_exists (ins := [0, 1]) (outs := [1]) (nb := 2) (by decide) (aux_ld (t := .noTrans) (m := 5) (n := 5) (lda := 5) (ldb := 6) (by simp [AuxLd]))
    (ompZlacpy_good (sel := some .lower) (t := .conjTrans) (by decide) (Or.inr rfl)) (fun _ => (1 : ℤ))
  exact ⟨mem', by simp [AuxLd], h⟩

example : ∃ mem', Exec (drvEnv 2 (oneDims 5 3) (ld2 6 0)) (zlaset 2 (some .upper) 5 3 7 8) (fun _ => (1 : ℤ)) mem' := by
  exact driver_exists (ins := [0]) (outs := [0]) (by decide) (one_ld (by decide)) (ompZlaset_good (by decide)) _

example : ∃ mem', Exec (drvEnv 2 (oneDims 5 3) (ld2 6 0))
    (zlascl 2 (fun x y => x / y) (some .upper) 3 2 5 3) (fun _ => (1 : ℚ)) mem' := by
  exact driver_exists (ins := [0]) (outs := [0]) (by decide) (one_ld (by decide)) (ompZlascl_good (by decide)) _

example : ∃ mem', AuxLd .trans 5 3 4 6 ∧ Exec (drvEnv 2 (auxDims .trans 5 3) (ld2 4 6))
    (zadd 2 (some .upper) .trans 5 3 2 3) (fun _ => (1 : ℤ)) mem' := by
  obtain ⟨mem', h⟩ := driver_exists (ins := [0, 1]) (outs := [0, 1]) (nb := 2) (by decide)
    (aux_ld (t := .trans) (m := 5) (n := 3) (lda := 4) (ldb := 6) (by simp [AuxLd]))
    (zadd_good (sel := some .upper) (t := .trans) (alpha := (2 : ℤ)) (beta := 3) (by decide) (by decide) (by decide)) (fun _ => (1 : ℤ))
  refine ⟨mem', by simp [AuxLd], ?_⟩
  unfold zadd
  rw [if_neg (by decide)]
  exact h

example : (3 : Nat) ≤ 4 ∧ (2 : Nat) < 3 ∧ Tile.Trans.trans ≠ .noTrans := by decide

end Verif.Props

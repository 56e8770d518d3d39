/-
Properties of the singular value routine, last stage: application of the transformations of the reduction to band form
to the singular vectors of the band matrix, C90.
-/
import Verif.Ge2gbApply
import Verif.Props.Gesdd

namespace Verif.Props

open Verif.Layout Verif.Tile Verif.Tree Verif.Qr Verif.Fact Finset Matrix

universe v

set_option linter.unusedSectionVars false

/-- Dimensions of `U` (3) and `VT` (4) (compute/zgesdd.c:680-682, 737-739). -/
def svDims (m n un vm k : Nat) : Nat × Nat := if k = 3 then (m, un) else if k = 4 then (vm, n) else (0, 0)

/-- Leading dimensions of `U` and `VT`. -/
def svLd (ldu ldvt k : Nat) : Nat := if k = 3 then ldu else ldvt

/-- Memory of `plasma_omp_zgesdd` when the vectors are generated: `til 0` is `A` and user array 1 is `T`, placed as in `sdEnv`;
user array 3 is `pU`, 4 is `pVT`, `til 3` and `til 4` are their tile matrices (compute/zgesdd.c:680-682, 737-739). -/
def svEnv (ib nb m n un ldu vm ldvt : Nat) : Buf → MatEnv
  | .usr k => if k = 1 then ⟨.tile, ib, nb, (qrT none ib nb m n).d.m, (qrT none ib nb m n).d.n⟩
    else ⟨.lapack (svLd ldu ldvt k), nb, nb, (svDims m n un vm k).1, (svDims m n un vm k).2⟩
  | .til k => if k = 0 then ⟨.tile, nb, nb, m, n⟩
    else ⟨.tile, nb, nb, (svDims m n un vm k).1, (svDims m n un vm k).2⟩

section
variable {α : Type v} [CommRing α] [StarRing α]

/-- Tile matrix of array `k`. -/
def svT (nb m n un vm k : Nat) : TMat Buf := tVw nb (svDims m n un vm) (svDims m n un vm) k

/-- Array `k`. -/
def svU (nb m n un vm k : Nat) : TMat Buf := uVw nb (svDims m n un vm) (svDims m n un vm) k

/-- Array `k` is translated, changed by `P` and translated back. -/
noncomputable def svDrive (nb m n un vm k : Nat) (P : List (TTask (Buf × Nat × Nat) α)) : List (TTask (Buf × Nat × Nat) α) :=
  copyK none (svT nb m n un vm k) (svU nb m n un vm k) (svT nb m n un vm k) ++
    (P ++ copyK none (svT nb m n un vm k) (svT nb m n un vm k) (svU nb m n un vm k))

/-- Tasks that apply `Q1` to `pU` (compute/zgesdd.c:684-708). -/
noncomputable def sdApplyU (ib nb m n un vm : Nat) : List (TTask (Buf × Nat × Nat) α) :=
  svDrive nb m n un vm 3 (applyQ (sdA nb m n) (qrT none ib nb m n) (svT nb m n un vm 3))

/-- Tasks that apply `P1` to `pVT` (compute/zgesdd.c:741-766). -/
noncomputable def sdApplyV (ib nb m n un vm : Nat) : List (TTask (Buf × Nat × Nat) α) :=
  svDrive nb m n un vm 4 (applyP (sdA nb m n) (qrT none ib nb m n) (svT nb m n un vm 4))

variable {ib nb m n lda un ldu vm ldvt : Nat} {K : QrKern α}

theorem svEnv_wf (hnb : 0 < nb) (hib : 0 < ib) (hu : m ≤ ldu) (hv : vm ≤ ldvt) :
    ∀ a, (svEnv ib nb m n un ldu vm ldvt a).WF := by
  intro a
  rcases a with k | k
  · unfold svEnv
    by_cases h : k = 1
    · simp only [h, if_true]
      exact ⟨hib, hnb, by simp, by simp, by simp⟩
    · simp only [if_neg h]
      refine ⟨hnb, hnb, ?_, by simp, by simp⟩
      intro l e
      simp only [Kind.lapack.injEq] at e
      subst e
      unfold svDims svLd
      split
      · exact hu
      · split
        · exact hv
        · exact Nat.zero_le _
  · unfold svEnv
    by_cases h : k = 0
    · simp only [h, if_true]
      exact ⟨hnb, hnb, by simp, by simp, by simp⟩
    · simp only [if_neg h]
      exact ⟨hnb, hnb, by simp, by simp, by simp⟩

theorem sv_fitsA (hnb : 0 < nb) : Fits (svEnv ib nb m n un ldu vm ldvt) nb (sdA nb m n) where
  al := al_tVw hnb 0
  mb := rfl
  nb := rfl
  rows := by simp [sdA, tVw, svEnv, general, sdDims]
  cols := by simp [sdA, tVw, svEnv, general, sdDims]
  st := fun _ _ _ _ _ => trivial

theorem sv_fitsT (hnb : 0 < nb) {k : Nat} (hk : k ≠ 0) : Fits (svEnv ib nb m n un ldu vm ldvt) nb (svT nb m n un vm k) where
  al := al_tVw hnb k
  mb := by simp [svT, tVw, svEnv, hk]
  nb := by simp [svT, tVw, svEnv, hk]
  rows := by simp [svT, tVw, svEnv, general, hk]
  cols := by simp [svT, tVw, svEnv, general, hk]
  st := fun _ _ _ _ _ => by simp [svT, tVw, svEnv, hk, MatEnv.stored]

theorem sv_fitsU (hnb : 0 < nb) {k : Nat} (hk : k ≠ 1) : Fits (svEnv ib nb m n un ldu vm ldvt) nb (svU nb m n un vm k) where
  al := al_uVw hnb k
  mb := by simp [svU, uVw, svEnv, hk]
  nb := by simp [svU, uVw, svEnv, hk]
  rows := by simp [svU, uVw, svEnv, general, hk]
  cols := by simp [svU, uVw, svEnv, general, hk]
  st := fun _ _ _ _ _ => by simp [svU, uVw, svEnv, hk, MatEnv.stored]

theorem svT_valid (hnb : 0 < nb) :
    TV (evalid (svEnv ib nb m n un ldu vm ldvt)) (qrT none ib nb m n).d.mb nb (sdA nb m n) (qrT none ib nb m n) :=
  fun r c hr hc i j hi hj => sdT_valid (lda := 0) hnb r c hr hc i j hi hj

theorem svDrive_good (hnb : 0 < nb) {k : Nat} (h0 : k ≠ 0) (h1 : k ≠ 1) {P : List (TTask (Buf × Nat × Nat) α)}
    (hP : Good (evalid (svEnv ib nb m n un ldu vm ldvt)) P) :
    Good (evalid (svEnv ib nb m n un ldu vm ldvt)) (svDrive nb m n un vm k P) :=
  (copyK_good (al_tVw hnb k) (stSq_none ..) ((sv_fitsU hnb h1).mono fun _ _ _ => trivial)
    ((sv_fitsT hnb h0).mono fun _ _ _ => trivial) le_rfl le_rfl le_rfl le_rfl).append (hP.append
    (copyK_good (al_tVw hnb k) (stSq_none ..) ((sv_fitsT hnb h0).mono fun _ _ _ => trivial)
    ((sv_fitsU hnb h1).mono fun _ _ _ => trivial) le_rfl le_rfl le_rfl le_rfl))

theorem svDrive_writes {k : Nat} {P : List (TTask (Buf × Nat × Nat) α)} (hP : Writes (fun x => x.1 = .til k) P) :
    Writes (fun x => x.1 = .til k ∨ x.1 = .usr k) (svDrive nb m n un vm k P) := by
  refine Writes.append ?_ (Writes.append (Writes.mono hP fun x h => .inl h) ?_)
  · refine Writes.mono (copyK_writes (stSq_none ..)) ?_
    rintro t ⟨m, n, rfl, -⟩; exact .inl rfl
  · refine Writes.mono (copyK_writes (stSq_none ..)) ?_
    rintro t ⟨m, n, rfl, -⟩; exact .inr rfl

theorem qrT_self (hnb : 0 < nb) (hib : 0 < ib) :
    (qrT none ib nb m n).sub 0 0 (qrT none ib nb m n).d.m (qrT none ib nb m n).d.n = qrT none ib nb m n := rfl

theorem svQ_good (hnb : 0 < nb) (hib : 0 < ib) (hmin : nb ≤ min m n) : Good (evalid (svEnv ib nb m n un ldu vm ldvt))
    (applyQ (α := α) (sdA nb m n) (qrT none ib nb m n) (svT nb m n un vm 3)) :=
  applyQ_good (sd_al hnb) (al_tVw hnb 3) rfl (hmin.trans (min_le_left _ _))
    (qrT_self hnb hib) (fun p q i j hi hj => (sv_fitsA hnb).valid hi hj)
    (fun p q i j hi hj => (sv_fitsT hnb (by omega)).valid hi hj) (svT_valid hnb) hib hnb

theorem svP_good (hnb : 0 < nb) (hib : 0 < ib) (hmin : nb ≤ min m n) : Good (evalid (svEnv ib nb m n un ldu vm ldvt))
    (applyP (α := α) (sdA nb m n) (qrT none ib nb m n) (svT nb m n un vm 4)) :=
  applyP_good (sd_al hnb) (al_tVw hnb 4) rfl (hmin.trans (min_le_right _ _))
    (qrT_self hnb hib) (fun p q i j hi hj => (sv_fitsA hnb).valid hi hj)
    (fun p q i j hi hj => (sv_fitsT hnb (by omega)).valid hi hj) (svT_valid hnb) hib hnb

theorem sdApplyU_good (hnb : 0 < nb) (hib : 0 < ib) (hmin : nb ≤ min m n) :
    Good (evalid (svEnv ib nb m n un ldu vm ldvt)) (sdApplyU (α := α) ib nb m n un vm) :=
  svDrive_good hnb (by omega) (by omega) (svQ_good hnb hib hmin)

theorem sdApplyV_good (hnb : 0 < nb) (hib : 0 < ib) (hmin : nb ≤ min m n) :
    Good (evalid (svEnv ib nb m n un ldu vm ldvt)) (sdApplyV (α := α) ib nb m n un vm) :=
  svDrive_good hnb (by omega) (by omega) (svP_good hnb hib hmin)

theorem sdApplyU_writes (hnb : 0 < nb) (hib : 0 < ib) (hmin : nb ≤ min m n) :
    Writes (fun x => x.1 = .til 3 ∨ x.1 = .usr 3) (sdApplyU (α := α) ib nb m n un vm) :=
  svDrive_writes (applyQ_writes (sd_al hnb) (al_tVw hnb 3) rfl (hmin.trans (min_le_left _ _)) (qrT_self hnb hib))

theorem sdApplyV_writes (hnb : 0 < nb) (hib : 0 < ib) (hmin : nb ≤ min m n) :
    Writes (fun x => x.1 = .til 4 ∨ x.1 = .usr 4) (sdApplyV (α := α) ib nb m n un vm) :=
  svDrive_writes (applyP_writes (sd_al hnb) (al_tVw hnb 4) rfl (hmin.trans (min_le_right _ _)) (qrT_self hnb hib))

theorem svU_view (hnb : 0 < nb) {k : Nat} (hk : k ≠ 1) (mem : Buf × Nat → α) (r c : Nat) :
    (svU nb m n un vm k).el (view (eloc (svEnv ib nb m n un ldu vm ldvt)) mem) r c = mem (.usr k, r + c * svLd ldu ldvt k) :=
  el_view_lapack (env := svEnv ib nb m n un ldu vm ldvt) (id := .usr k) (b := nb) (m := (svDims m n un vm k).1)
    (n := (svDims m n un vm k).2) hnb (by simp [svEnv, hk]) mem r c

/-- The array after the tasks, in terms of the tile matrix after `P`. -/
theorem svDrive_out (hnb : 0 < nb) (hib : 0 < ib) (hu : m ≤ ldu) (hv : vm ≤ ldvt) {k : Nat} (h0 : k ≠ 0) (h1 : k ≠ 1)
    {P : List (TTask (Buf × Nat × Nat) α)} (hP : Good (evalid (svEnv ib nb m n un ldu vm ldvt)) P) {mem mem' : Buf × Nat → α}
    (h : Exec (svEnv ib nb m n un ldu vm ldvt) (svDrive nb m n un vm k P) mem mem') {r c : Nat}
    (hr : r < (svDims m n un vm k).1) (hc : c < (svDims m n un vm k).2) :
    mem' (.usr k, r + c * svLd ldu ldvt k) = (svT nb m n un vm k).el
      (texec P (texec (copyK none (svT nb m n un vm k) (svU nb m n un vm k) (svT nb m n un vm k))
        (view (eloc (svEnv ib nb m n un ldu vm ldvt)) mem))) r c := by
  have hg := svDrive_good (m := m) (n := n) (un := un) (ldu := ldu) (vm := vm) (ldvt := ldvt) hnb h0 h1 hP
  have hcor := Exec.correct (svEnv_wf hnb hib hu hv) hg.loc hg.ins (tcovered_of_declared hg.decl) h
  rw [← svU_view (ib := ib) (m := m) (n := n) (un := un) (ldu := ldu) (vm := vm) (ldvt := ldvt) hnb h1 mem' r c]
  have hal : (svU nb m n un vm k).Al nb := al_uVw hnb k
  have hv : evalid (svEnv ib nb m n un ldu vm ldvt) ((svU nb m n un vm k).at' (r / nb) (c / nb)) (r % nb) (c % nb) := by
    refine (sv_fitsU hnb h1).valid ?_ ?_
    · rw [tdim_row]
      exact ⟨Nat.mod_lt _ hnb, by rw [Nat.mul_comm, Nat.div_add_mod]; exact hr⟩
    · rw [tdim_row]
      exact ⟨Nat.mod_lt _ hnb, by rw [Nat.mul_comm, Nat.div_add_mod]; exact hc⟩
  have e : (svU nb m n un vm k).el (view (eloc (svEnv ib nb m n un ldu vm ldvt)) mem') r c = (svU nb m n un vm k).el
      (texec (svDrive nb m n un vm k P) (view (eloc (svEnv ib nb m n un ldu vm ldvt)) mem)) r c := hcor.1 _ _ _ hv
  rw [e]
  unfold svDrive
  rw [texec_append, texec_append]
  exact copyK_el (st := none) (al_tVw hnb k) (al_tVw hnb k) hal (stSq_none ..) (by intro h; cases h) _ hr hc trivial

theorem svDrive_in (hnb : 0 < nb) {k : Nat} (h1 : k ≠ 1) (mem : Buf × Nat → α) {r c : Nat}
    (hr : r < (svDims m n un vm k).1) (hc : c < (svDims m n un vm k).2) :
    (svT nb m n un vm k).el (texec (copyK none (svT nb m n un vm k) (svU nb m n un vm k) (svT nb m n un vm k))
      (view (eloc (svEnv ib nb m n un ldu vm ldvt)) mem)) r c = mem (.usr k, r + c * svLd ldu ldvt k) := by
  rw [← svU_view (ib := ib) (m := m) (n := n) (un := un) (ldu := ldu) (vm := vm) (ldvt := ldvt) hnb h1 mem r c]
  exact copyK_el (st := none) (al_tVw hnb k) (al_uVw hnb k) (al_tVw hnb k) (stSq_none ..) (by intro h; cases h) _ hr hc trivial

/-- `Q1` of the reduction that left `s2`. -/
noncomputable def sdQ1 (ib nb m n : Nat) (s2 : Store (Buf × Nat × Nat) α) : Matrix (Fin m) (Fin m) α :=
  allQ nb ib (sdA nb m n) (qrT none ib nb m n) s2

/-- `P1` of the reduction that left `s2`. -/
noncomputable def sdP1 (ib nb m n : Nat) (s2 : Store (Buf × Nat × Nat) α) : Matrix (Fin n) (Fin n) α :=
  allP nb ib (sdA nb m n) (qrT none ib nb m n) s2

/-- The reduction, with the matrices determined by what it leaves in `A` and `T`. -/
theorem sdReduce_vec (hK : QrSpec K) (hnb : 0 < nb) (hib : 0 < ib) (hlda : m ≤ lda) {mem mem1 : Buf × Nat → α}
    (h : Exec (sdEnv ib nb m n lda) (sdReduce K ib nb m n) mem mem1) :
    ∃ s2 : Store (Buf × Nat × Nat) α,
      (sdQ1 ib nb m n s2 ∈ unitaryGroup (Fin m) α ∧
        sdP1 ib nb m n s2 ∈ unitaryGroup (Fin n) α) ∧
      uArr mem 0 lda m n = sdQ1 ib nb m n s2 * bandMat mem1 nb m n *
        sdP1 ib nb m n s2 ∧
      SameAT nb ib (sdA nb m n) (qrT none ib nb m n) (view (eloc (sdEnv ib nb m n lda)) mem1) s2 := by
  have hwf := sdEnv_wf (n := n) hnb hib hlda
  have hg := sdReduce_good (m := m) (n := n) (lda := lda) hK hnb hib
  have hcor := Exec.correct hwf hg.loc hg.ins (tcovered_of_declared hg.decl) h
  set s0 := view (eloc (sdEnv ib nb m n lda)) mem with hs0
  set s1 := texec (copyK none (sdA nb m n) (uVw nb (sdDims m n) (sdDims m n) 0) (sdA nb m n)) s0 with hs1
  set s2 := texec (pzge2gb K (sdA nb m n) (qrT none ib nb m n)) s1 with hs2
  have e0 : uArr mem 0 lda m n = mat m n ((sdA nb m n).el s1) := by
    ext ⟨r, hr⟩ ⟨c, hc⟩
    show mem (.usr 0, r + c * lda) = (sdA nb m n).el s1 r c
    rw [hs1, sdA_in hnb s0 hr hc, hs0,
      ← el_view_lapack (env := sdEnv ib nb m n lda) (id := .usr 0) (b := nb) (m := m) (n := n) hnb rfl mem r c]
    rfl
  have e1 : bandMat mem1 nb m n = mat m n (mask (BandP (sdUp m n) nb) ((sdA nb m n).el s2)) := by
    ext ⟨r, hr⟩ ⟨c, hc⟩
    rw [bandMat, mat_apply, mat_apply]
    refine mask_congr (α := α) (X := fun r c => mem1 (.usr 2, bandAddr (sdUp m n) nb r c)) Iff.rfl fun hB => ?_
    have hlt : r < min m n ∧ c < min m n := by
      unfold BandP UBand LBand sdUp at hB
      by_cases h : n ≤ m <;> simp [h] at hB <;> omega
    have hv : evalid (sdEnv ib nb m n lda) ((sdBand nb m n).at' (r / nb) (c / nb)) (r % nb) (c % nb) := by
      have d1 : r / nb * nb + r % nb = r := by rw [Nat.mul_comm, Nat.div_add_mod]
      have d2 : c / nb * nb + c % nb = c := by rw [Nat.mul_comm, Nat.div_add_mod]
      refine sdBand_valid _ _ _ _ ?_ ?_ (Nat.mod_lt _ hnb) (Nat.mod_lt _ hnb) ?_
      · rw [d1]; exact hlt.1
      · rw [d2]; exact hlt.2
      · rw [d1, d2]; exact hB
    have h1 := hcor.1 _ _ _ hv
    rw [← sdBand_view (ib := ib) (m := m) (n := n) (lda := lda) mem1 r c]
    have h2 : (sdBand nb m n).el (view (eloc (sdEnv ib nb m n lda)) mem1) r c =
        (sdBand nb m n).el (texec (sdReduce K ib nb m n) s0) r c := h1
    rw [h2]
    unfold sdReduce
    rw [texec_append, texec_append, ← hs1, ← hs2, bandCpy_el (b := nb) (sdUp m n) (sd_al hnb) (sdBand_al hnb) (by intro h; cases h) s2
      hr hc (hlt.1.trans_le (min_le_right _ _)) (hlt.2.trans_le (min_le_left _ _)), mask_pos hB, mask_neg (fun h => h hB), add_zero]
  have hT : (qrT none ib nb m n).id ≠ (sdA nb m n).id := by intro h; cases h
  have key := ge2gb_vec (T := qrT none ib nb m n) hK hib (sd_al (m := m) (n := n) hnb) hT rfl hnb s1 hs2
  have eB : BandP (sdUp m n) nb = if m < n then LBand nb else UBand nb := by
    funext r c
    unfold BandP sdUp
    by_cases hmn : n ≤ m
    · rw [decide_eq_true hmn, if_pos rfl, if_neg (by omega)]
    · rw [decide_eq_false hmn, if_neg (by decide), if_pos (by omega)]
  have hfin : ∀ x : Buf × Nat × Nat, x.1 ≠ .usr 2 → texec (sdReduce K ib nb m n) s0 x = s2 x := by
    intro x hx
    unfold sdReduce
    rw [texec_append, texec_append, ← hs1, ← hs2]
    exact (bandCpy_writes _).frame s2 hx
  refine ⟨s2, key.1, ?_, ⟨?_, ?_⟩⟩
  · rw [e0, e1, eB]
    exact key.2
  · intro r c hr hc
    have hv : evalid (sdEnv ib nb m n lda) ((sdA nb m n).at' (r / nb) (c / nb)) (r % nb) (c % nb) := by
      refine (fits_sdA hnb).valid ?_ ?_
      · rw [tdim_row]
        exact ⟨Nat.mod_lt _ hnb, by rw [Nat.mul_comm, Nat.div_add_mod]; exact hr⟩
      · rw [tdim_row]
        exact ⟨Nat.mod_lt _ hnb, by rw [Nat.mul_comm, Nat.div_add_mod]; exact hc⟩
    have h1 := hcor.1 _ _ _ hv
    rw [hfin _ (by intro h; cases h)] at h1
    exact h1
  · intro r c hr hc i j hi hj
    have h1 := hcor.1 _ _ _ (sdT_valid (lda := lda) hnb r c hr hc i j hi hj)
    rw [hfin _ (by intro h; cases h)] at h1
    exact h1

/-- What the reduction left in `A` and `T` is still there when the vectors are generated. -/
theorem sv_same {mem1 mem2 : Buf × Nat → α} {s2 : Store (Buf × Nat × Nat) α}
    (hS : SameAT nb ib (sdA nb m n) (qrT none ib nb m n) (view (eloc (sdEnv ib nb m n lda)) mem1) s2)
    (hA : ∀ x, mem2 (.til 0, x) = mem1 (.til 0, x)) (hT : ∀ x, mem2 (.usr 1, x) = mem1 (.usr 1, x))
    {P : List (TTask (Buf × Nat × Nat) α)} {k : Nat} (h0 : k ≠ 0) (hP : Writes (fun x => x.1 = .til k) P) :
    SameAT nb ib (sdA nb m n) (qrT none ib nb m n) (texec P (view (eloc (svEnv ib nb m n un ldu vm ldvt)) mem2)) s2 := by
  refine ⟨fun r c hr hc => ?_, fun r c hr hc i j hi hj => ?_⟩
  · rw [← hS.el r c hr hc]
    show texec P _ ((sdA nb m n).at' _ _) _ _ = _
    rw [hP.frame _ (by intro h; apply h0; injection h with h; exact h.symm)]
    exact hA _
  · rw [← hS.tt r c hr hc i j hi hj, hP.frame _ (by intro h; cases h)]
    exact hT _

theorem sv_copy_writes {k : Nat} : Writes (fun x => x.1 = .til k)
    (copyK (α := α) none (svT nb m n un vm k) (svU nb m n un vm k) (svT nb m n un vm k)) := by
  refine Writes.mono (copyK_writes (stSq_none ..)) ?_
  rintro t ⟨m, n, rfl, -⟩; rfl

/-- `Q1` reaches the user's `U`. -/
theorem sdApplyU_spec (hnb : 0 < nb) (hib : 0 < ib) (hmin : nb ≤ min m n) (hu : m ≤ ldu) (hv : vm ≤ ldvt)
    {mem1 mem2 mem3 : Buf × Nat → α} {s2 : Store (Buf × Nat × Nat) α}
    (hS : SameAT nb ib (sdA nb m n) (qrT none ib nb m n) (view (eloc (sdEnv ib nb m n lda)) mem1) s2)
    (hA : ∀ x, mem2 (.til 0, x) = mem1 (.til 0, x)) (hT : ∀ x, mem2 (.usr 1, x) = mem1 (.usr 1, x))
    (h : Exec (svEnv ib nb m n un ldu vm ldvt) (sdApplyU ib nb m n un vm) mem2 mem3) :
    uArr mem3 3 ldu m un = sdQ1 ib nb m n s2 * uArr mem2 3 ldu m un := by
  ext ⟨r, hr⟩ ⟨c, hc⟩
  show mem3 (.usr 3, r + c * svLd ldu ldvt 3) = _
  rw [svDrive_out (n := n) (un := un) (vm := vm) hnb hib hu hv (by omega) (by omega) (svQ_good hnb hib hmin) h hr hc]
  refine (applyQ_el (C := svT nb m n un vm 3) (s2 := s2) (b := nb) (ib := ib) (sd_al hnb) (al_tVw hnb 3) rfl hib hnb (sv_same hS hA hT (by omega) sv_copy_writes)
    (by intro h; cases h) (by intro h; cases h) rfl (hmin.trans (min_le_left _ _)) (qrT_self hnb hib) hr hc).trans ?_
  unfold lmul
  rw [dif_pos (show r < (sdA nb m n).d.m from hr), Matrix.mul_apply]
  refine Finset.sum_congr rfl fun l _ => ?_
  congr 1
  exact svDrive_in hnb (by omega) mem2 l.2 hc

/-- `P1` reaches the user's `VT`. -/
theorem sdApplyV_spec (hnb : 0 < nb) (hib : 0 < ib) (hmin : nb ≤ min m n) (hu : m ≤ ldu) (hv : vm ≤ ldvt)
    {mem1 mem2 mem3 : Buf × Nat → α} {s2 : Store (Buf × Nat × Nat) α}
    (hS : SameAT nb ib (sdA nb m n) (qrT none ib nb m n) (view (eloc (sdEnv ib nb m n lda)) mem1) s2)
    (hA : ∀ x, mem2 (.til 0, x) = mem1 (.til 0, x)) (hT : ∀ x, mem2 (.usr 1, x) = mem1 (.usr 1, x))
    (h : Exec (svEnv ib nb m n un ldu vm ldvt) (sdApplyV ib nb m n un vm) mem2 mem3) :
    uArr mem3 4 ldvt vm n = uArr mem2 4 ldvt vm n * sdP1 ib nb m n s2 := by
  ext ⟨r, hr⟩ ⟨c, hc⟩
  show mem3 (.usr 4, r + c * svLd ldu ldvt 4) = _
  rw [svDrive_out (n := n) (un := un) (vm := vm) hnb hib hu hv (by omega) (by omega) (svP_good hnb hib hmin) h hr hc]
  refine (applyP_el (C := svT nb m n un vm 4) (s2 := s2) (b := nb) (ib := ib) (sd_al hnb) (al_tVw hnb 4) (by intro h; cases h) rfl hib hnb
    (sv_same hS hA hT (by omega) sv_copy_writes)
    (by intro h; cases h) (by intro h; cases h) rfl (hmin.trans (min_le_right _ _)) (qrT_self hnb hib) hr hc).trans ?_
  unfold rmul
  rw [dif_pos (show c < (sdA nb m n).d.n from hc), Matrix.mul_apply]
  refine Finset.sum_congr rfl fun l _ => ?_
  congr 1
  exact svDrive_in hnb (by omega) mem2 hr l.2

theorem sdApplyU_frame (hnb : 0 < nb) (hib : 0 < ib) (hmin : nb ≤ min m n) (hu : m ≤ ldu) (hv : vm ≤ ldvt)
    {mem2 mem3 : Buf × Nat → α} (h : Exec (svEnv ib nb m n un ldu vm ldvt) (sdApplyU ib nb m n un vm) mem2 mem3)
    {a : Buf} (h1 : a ≠ .til 3) (h2 : a ≠ .usr 3) (x : Nat) : mem3 (a, x) = mem2 (a, x) := by
  refine Exec.frame_buf (svEnv_wf hnb hib hu hv) (sdApplyU_good hnb hib hmin) h
    (Writes.mono (sdApplyU_writes hnb hib hmin) ?_) x
  rintro t (e | e) e' <;> rw [e] at e'
  · exact h1 e'.symm
  · exact h2 e'.symm

theorem sdApplyV_frame (hnb : 0 < nb) (hib : 0 < ib) (hmin : nb ≤ min m n) (hu : m ≤ ldu) (hv : vm ≤ ldvt)
    {mem2 mem3 : Buf × Nat → α} (h : Exec (svEnv ib nb m n un ldu vm ldvt) (sdApplyV ib nb m n un vm) mem2 mem3)
    {a : Buf} (h1 : a ≠ .til 4) (h2 : a ≠ .usr 4) (x : Nat) : mem3 (a, x) = mem2 (a, x) := by
  refine Exec.frame_buf (svEnv_wf hnb hib hu hv) (sdApplyV_good hnb hib hmin) h
    (Writes.mono (sdApplyV_writes hnb hib hmin) ?_) x
  rintro t (e | e) e' <;> rw [e] at e'
  · exact h1 e'.symm
  · exact h2 e'.symm

theorem sdApplyU_exists (hnb : 0 < nb) (hib : 0 < ib) (hmin : nb ≤ min m n) (hu : m ≤ ldu) (hv : vm ≤ ldvt)
    (mem : Buf × Nat → α) : ∃ mem', Exec (svEnv ib nb m n un ldu vm ldvt) (sdApplyU ib nb m n un vm) mem mem' :=
  Exec.exists (svEnv_wf hnb hib hu hv) (sdApplyU_good (ldu := ldu) (ldvt := ldvt) hnb hib hmin).loc (sdApplyU_good (ldu := ldu) (ldvt := ldvt) hnb hib hmin).ins mem

theorem sdApplyV_exists (hnb : 0 < nb) (hib : 0 < ib) (hmin : nb ≤ min m n) (hu : m ≤ ldu) (hv : vm ≤ ldvt)
    (mem : Buf × Nat → α) : ∃ mem', Exec (svEnv ib nb m n un ldu vm ldvt) (sdApplyV ib nb m n un vm) mem mem' :=
  Exec.exists (svEnv_wf hnb hib hu hv) (sdApplyV_good (ldu := ldu) (ldvt := ldvt) hnb hib hmin).loc (sdApplyV_good (ldu := ldu) (ldvt := ldvt) hnb hib hmin).ins mem

end

/-- Every `plasma_desc_view` made when the vectors are generated (compute/zgesdd.c:692-694, 755-757). -/
def SvViews (A T U VT : Desc) : Prop :=
  if A.m < A.n then
    ViewOK A A.mb 0 (A.m - A.mb) (A.n - A.nb) ∧ ViewOK T T.mb 0 (T.m - T.mb) (T.n - T.nb) ∧ ViewOK U U.mb 0 (U.m - U.mb) U.n
  else
    ViewOK A 0 A.nb (A.m - A.mb) (A.n - A.nb) ∧ ViewOK T 0 T.nb (T.m - T.mb) (T.n - T.nb) ∧
      ViewOK VT 0 VT.nb VT.m (VT.n - VT.nb)

section
variable {𝕜 : Type v} [RCLike 𝕜] {ib nb m n lda un ldu vm ldvt : Nat} {K : QrKern 𝕜}

theorem sv_views (hnb : 0 < nb) (hmin : nb ≤ min m n) :
    SvViews (sdA nb m n).d (qrT none ib nb m n).d (svT nb m n un vm 3).d (svT nb m n un vm 4).d := by
  have em : nb ≤ m := hmin.trans (min_le_left _ _)
  have en : nb ≤ n := hmin.trans (min_le_right _ _)
  have hm : 1 ≤ (general nb nb m n 0 0 m n).mt := by
    rw [show (general nb nb m n 0 0 m n).mt = ntiles 0 m nb from rfl, ntiles_zero _ _ hnb, Nat.one_le_iff_ne_zero, ← Nat.pos_iff_ne_zero,
      lt_ceilDiv hnb]
    omega
  have hn : 1 ≤ (general nb nb m n 0 0 m n).nt := by
    rw [show (general nb nb m n 0 0 m n).nt = ntiles 0 n nb from rfl, ntiles_zero _ _ hnb, Nat.one_le_iff_ne_zero, ← Nat.pos_iff_ne_zero,
      lt_ceilDiv hnb]
    omega
  have tm : ib ≤ (general nb nb m n 0 0 m n).mt * ib := Nat.le_mul_of_pos_left _ hm
  have tn : nb ≤ (general nb nb m n 0 0 m n).nt * nb := Nat.le_mul_of_pos_left _ hn
  have aT : (qrT none ib nb m n).d = general ib nb ((general nb nb m n 0 0 m n).mt * ib) ((general nb nb m n 0 0 m n).nt * nb) 0 0
    ((general nb nb m n 0 0 m n).mt * ib) ((general nb nb m n 0 0 m n).nt * nb) := rfl
  unfold SvViews
  rw [aT]
  generalize (general nb nb m n 0 0 m n).mt * ib = tm' at tm ⊢
  generalize (general nb nb m n 0 0 m n).nt * nb = tn' at tn ⊢
  simp only [ViewOK, sdA, svT, tVw, svDims, sdDims, general]
  split <;> simp <;> omega

/-- **C90.** Last stage of `plasma_omp_zgesdd`, with `1 ≤ nb ≤ min(m,n)`.  Let `mem1` be left by any execution of the reduction
to band form started in `mem`, and let `mem2` be a later memory with the same `A` and `T` (the bulge chasing, `dbdsdc` and the
application of `Q2` and `P2` work on other arrays).  There are unitary `Q` and `P` with `A = Q·B·P`, `B` the band matrix left in
`pA_band`, and every execution of the tasks that apply `Q1` and `P1` replaces `U` by `Q·U` and `VT` by `VT·P`, with these same
`Q` and `P`.  `A` and `T` are kept, nothing is written outside the two matrices, and every view is inside its descriptor. -/
theorem C90_gesdd_vectors (hK : QrSpec K) (hnb : 0 < nb) (hib : 0 < ib) (hmin : nb ≤ min m n) (hlda : m ≤ lda) (hu : m ≤ ldu)
    (hv : vm ≤ ldvt) {mem mem1 mem2 mem3 mem4 : Buf × Nat → 𝕜}
    (h1 : Exec (sdEnv ib nb m n lda) (sdReduce K ib nb m n) mem mem1)
    (hA : ∀ x, mem2 (.til 0, x) = mem1 (.til 0, x)) (hT : ∀ x, mem2 (.usr 1, x) = mem1 (.usr 1, x))
    (h3 : Exec (svEnv ib nb m n un ldu vm ldvt) (sdApplyU ib nb m n un vm) mem2 mem3)
    (h4 : Exec (svEnv ib nb m n un ldu vm ldvt) (sdApplyV ib nb m n un vm) mem3 mem4) :
    (∃ Q ∈ Matrix.unitaryGroup (Fin m) 𝕜, ∃ P ∈ Matrix.unitaryGroup (Fin n) 𝕜, ∃ B : Matrix (Fin m) (Fin n) 𝕜,
      Matrix.of (fun (r : Fin m) (c : Fin n) => mem (.usr 0, r.1 + c.1 * lda)) = Q * B * P ∧
      (∀ r c, B r c = if n ≤ m then
          if r.1 ≤ c.1 ∧ c.1 ≤ r.1 + nb then mem1 (.usr 2, 2 * nb + r.1 + c.1 * (3 * nb + 1) - c.1) else 0
        else if c.1 ≤ r.1 ∧ r.1 ≤ c.1 + nb then mem1 (.usr 2, nb + r.1 + c.1 * (3 * nb + 1) - c.1) else 0) ∧
      Matrix.of (fun (r : Fin m) (c : Fin un) => mem4 (.usr 3, r.1 + c.1 * ldu)) =
        Q * Matrix.of (fun (r : Fin m) (c : Fin un) => mem2 (.usr 3, r.1 + c.1 * ldu)) ∧
      Matrix.of (fun (r : Fin vm) (c : Fin n) => mem4 (.usr 4, r.1 + c.1 * ldvt)) =
        Matrix.of (fun (r : Fin vm) (c : Fin n) => mem2 (.usr 4, r.1 + c.1 * ldvt)) * P) ∧
    (∀ x, mem4 (.til 0, x) = mem1 (.til 0, x)) ∧ (∀ x, mem4 (.usr 1, x) = mem1 (.usr 1, x)) ∧
    (∀ x, (∀ i j, i < m → j < un → x ≠ i + j * ldu) → mem4 (.usr 3, x) = mem2 (.usr 3, x)) ∧
    (∀ x, (∀ i j, i < vm → j < n → x ≠ i + j * ldvt) → mem4 (.usr 4, x) = mem2 (.usr 4, x)) ∧
    SvViews (sdA nb m n).d (qrT none ib nb m n).d (svT nb m n un vm 3).d (svT nb m n un vm 4).d := by
  obtain ⟨s2, ⟨hQ, hP⟩, e, hS⟩ := sdReduce_vec hK hnb hib hlda h1
  have f3 := fun {a : Buf} (h : a ≠ .til 3) (h' : a ≠ .usr 3) x => sdApplyU_frame hnb hib hmin hu hv h3 h h' x
  have f4 := fun {a : Buf} (h : a ≠ .til 4) (h' : a ≠ .usr 4) x => sdApplyV_frame hnb hib hmin hu hv h4 h h' x
  have gA : ∀ x, mem3 (.til 0, x) = mem1 (.til 0, x) := fun x => (f3 (by simp) (by simp) x).trans (hA x)
  have gT : ∀ x, mem3 (.usr 1, x) = mem1 (.usr 1, x) := fun x => (f3 (by simp) (by simp) x).trans (hT x)
  refine ⟨⟨_, hQ, _, hP, bandMat mem1 nb m n, e, ?_, ?_, ?_⟩, fun x => (f4 (by simp) (by simp) x).trans (gA x),
    fun x => (f4 (by simp) (by simp) x).trans (gT x), fun x hx => ?_, fun x hx => ?_, sv_views hnb hmin⟩
  · intro r c
    unfold bandMat
    rw [mat_apply]
    by_cases hmn : n ≤ m
    · rw [if_pos hmn]
      unfold mask BandP bandAddr sdUp UBand
      simp [hmn]
    · rw [if_neg hmn]
      unfold mask BandP bandAddr sdUp LBand
      simp [hmn]
  · rw [← uArr, ← uArr, ← sdApplyU_spec hnb hib hmin hu hv hS hA hT h3]
    ext r c
    exact f4 (by simp) (by simp) _
  · rw [← uArr, ← uArr, sdApplyV_spec hnb hib hmin hu hv hS gA gT h4]
    congr 1
    ext r c
    exact f3 (by simp) (by simp) _
  · rw [f4 (by simp) (by simp)]
    exact Exec.frame_pad (svEnv_wf hnb hib hu hv) (sdApplyU_good hnb hib hmin) h3 (a := .usr 3) rfl x hx
  · rw [Exec.frame_pad (svEnv_wf hnb hib hu hv) (sdApplyV_good hnb hib hmin) h4 (a := .usr 4) rfl x hx]
    exact f3 (by simp) (by simp) x

/-- **C90.** If the arrays hold a decomposition `B = U·S·VT` of the band matrix with orthonormal columns of `U` and rows of
`VT`, then they hold such a decomposition of `A` afterwards, with the same `S`. -/
theorem C90_gesdd_compose (hK : QrSpec K) (hnb : 0 < nb) (hib : 0 < ib) (hmin : nb ≤ min m n) (hlda : m ≤ lda) (hu : m ≤ ldu)
    (hv : vm ≤ ldvt) {mem mem1 mem2 mem3 mem4 : Buf × Nat → 𝕜}
    (h1 : Exec (sdEnv ib nb m n lda) (sdReduce K ib nb m n) mem mem1)
    (hA : ∀ x, mem2 (.til 0, x) = mem1 (.til 0, x)) (hT : ∀ x, mem2 (.usr 1, x) = mem1 (.usr 1, x))
    (h3 : Exec (svEnv ib nb m n un ldu vm ldvt) (sdApplyU ib nb m n un vm) mem2 mem3)
    (h4 : Exec (svEnv ib nb m n un ldu vm ldvt) (sdApplyV ib nb m n un vm) mem3 mem4)
    (S : Matrix (Fin un) (Fin vm) 𝕜)
    (hB : ∀ r c, (Matrix.of (fun (r : Fin m) (c : Fin un) => mem2 (.usr 3, r.1 + c.1 * ldu)) * S *
        Matrix.of (fun (r : Fin vm) (c : Fin n) => mem2 (.usr 4, r.1 + c.1 * ldvt))) r c = if n ≤ m then
          if r.1 ≤ c.1 ∧ c.1 ≤ r.1 + nb then mem1 (.usr 2, 2 * nb + r.1 + c.1 * (3 * nb + 1) - c.1) else 0
        else if c.1 ≤ r.1 ∧ r.1 ≤ c.1 + nb then mem1 (.usr 2, nb + r.1 + c.1 * (3 * nb + 1) - c.1) else 0)
    (hU : (Matrix.of (fun (r : Fin m) (c : Fin un) => mem2 (.usr 3, r.1 + c.1 * ldu)))ᴴ *
      Matrix.of (fun (r : Fin m) (c : Fin un) => mem2 (.usr 3, r.1 + c.1 * ldu)) = 1)
    (hV : Matrix.of (fun (r : Fin vm) (c : Fin n) => mem2 (.usr 4, r.1 + c.1 * ldvt)) *
      (Matrix.of (fun (r : Fin vm) (c : Fin n) => mem2 (.usr 4, r.1 + c.1 * ldvt)))ᴴ = 1) :
    Matrix.of (fun (r : Fin m) (c : Fin n) => mem (.usr 0, r.1 + c.1 * lda)) =
      Matrix.of (fun (r : Fin m) (c : Fin un) => mem4 (.usr 3, r.1 + c.1 * ldu)) * S *
        Matrix.of (fun (r : Fin vm) (c : Fin n) => mem4 (.usr 4, r.1 + c.1 * ldvt)) ∧
    (Matrix.of (fun (r : Fin m) (c : Fin un) => mem4 (.usr 3, r.1 + c.1 * ldu)))ᴴ *
      Matrix.of (fun (r : Fin m) (c : Fin un) => mem4 (.usr 3, r.1 + c.1 * ldu)) = 1 ∧
    Matrix.of (fun (r : Fin vm) (c : Fin n) => mem4 (.usr 4, r.1 + c.1 * ldvt)) *
      (Matrix.of (fun (r : Fin vm) (c : Fin n) => mem4 (.usr 4, r.1 + c.1 * ldvt)))ᴴ = 1 := by
  obtain ⟨⟨Q, hQ, P, hP, B, eA, eB, eU, eV⟩, -⟩ := C90_gesdd_vectors hK hnb hib hmin hlda hu hv h1 hA hT h3 h4
  have e : B = Matrix.of (fun (r : Fin m) (c : Fin un) => mem2 (.usr 3, r.1 + c.1 * ldu)) * S *
        Matrix.of (fun (r : Fin vm) (c : Fin n) => mem2 (.usr 4, r.1 + c.1 * ldvt)) := by
    ext r c; rw [hB, eB]
  rw [eA, eU, eV, e]
  refine ⟨by simp only [Matrix.mul_assoc], ?_, ?_⟩
  · have : Qᴴ * Q = 1 := Matrix.mem_unitaryGroup_iff'.mp hQ
    rw [Matrix.conjTranspose_mul, Matrix.mul_assoc, ← Matrix.mul_assoc Qᴴ, this, Matrix.one_mul, hU]
  · have : P * Pᴴ = 1 := Matrix.mem_unitaryGroup_iff.mp hP
    rw [Matrix.conjTranspose_mul, Matrix.mul_assoc, ← Matrix.mul_assoc P, this, Matrix.one_mul, hV]

end

/-- The hypotheses of `C90_gesdd_vectors` are met: a 7 by 5 and a 5 by 7 matrix with `nb = 2`; the matrices and the vectors
are not zero. -/
example : ∃ mem mem1 mem2 mem3 mem4 : Buf × Nat → ℂ, mem (.usr 0, 3) ≠ 0 ∧ mem2 (.usr 3, 1) ≠ 0 ∧ mem2 (.usr 4, 1) ≠ 0 ∧
    Exec (sdEnv 1 2 7 5 8) (sdReduce lkern 1 2 7 5) mem mem1 ∧
    (∀ x, mem2 (.til 0, x) = mem1 (.til 0, x)) ∧ (∀ x, mem2 (.usr 1, x) = mem1 (.usr 1, x)) ∧
    Exec (svEnv 1 2 7 5 5 8 5 6) (sdApplyU 1 2 7 5 5 5) mem2 mem3 ∧
    Exec (svEnv 1 2 7 5 5 8 5 6) (sdApplyV 1 2 7 5 5 5) mem3 mem4 := by
  obtain ⟨mem1, h1⟩ := sdReduce_exists (lkern_spec (𝕜 := ℂ)) (ib := 1) (nb := 2) (m := 7) (n := 5) (lda := 8) (by omega) (by omega)
    (by omega) (fun x => if x.1 = .usr 0 then 1 else 0)
  obtain ⟨mem3, h3⟩ := sdApplyU_exists (ib := 1) (nb := 2) (m := 7) (n := 5) (un := 5) (ldu := 8) (vm := 5) (ldvt := 6) (by omega)
    (by omega) (by decide) (by omega) (by omega) (fun x : Buf × Nat => if x.1 = .usr 3 ∨ x.1 = .usr 4 then 1 else mem1 x)
  obtain ⟨mem4, h4⟩ := sdApplyV_exists (ib := 1) (nb := 2) (m := 7) (n := 5) (un := 5) (ldu := 8) (vm := 5) (ldvt := 6) (by omega)
    (by omega) (by decide) (by omega) (by omega) mem3
  exact ⟨_, mem1, _, mem3, mem4, by simp, by simp, by simp, h1, by simp, by simp, h3, h4⟩

example : ∃ mem mem1 mem2 mem3 mem4 : Buf × Nat → ℂ, mem (.usr 0, 3) ≠ 0 ∧ mem2 (.usr 3, 1) ≠ 0 ∧ mem2 (.usr 4, 1) ≠ 0 ∧
    Exec (sdEnv 1 2 5 7 8) (sdReduce lkern 1 2 5 7) mem mem1 ∧
    (∀ x, mem2 (.til 0, x) = mem1 (.til 0, x)) ∧ (∀ x, mem2 (.usr 1, x) = mem1 (.usr 1, x)) ∧
    Exec (svEnv 1 2 5 7 5 8 7 7) (sdApplyU 1 2 5 7 5 7) mem2 mem3 ∧
    Exec (svEnv 1 2 5 7 5 8 7 7) (sdApplyV 1 2 5 7 5 7) mem3 mem4 := by
  obtain ⟨mem1, h1⟩ := sdReduce_exists (lkern_spec (𝕜 := ℂ)) (ib := 1) (nb := 2) (m := 5) (n := 7) (lda := 8) (by omega) (by omega)
    (by omega) (fun x => if x.1 = .usr 0 then 1 else 0)
  obtain ⟨mem3, h3⟩ := sdApplyU_exists (ib := 1) (nb := 2) (m := 5) (n := 7) (un := 5) (ldu := 8) (vm := 7) (ldvt := 7) (by omega)
    (by omega) (by decide) (by omega) (by omega) (fun x : Buf × Nat => if x.1 = .usr 3 ∨ x.1 = .usr 4 then 1 else mem1 x)
  obtain ⟨mem4, h4⟩ := sdApplyV_exists (ib := 1) (nb := 2) (m := 5) (n := 7) (un := 5) (ldu := 8) (vm := 7) (ldvt := 7) (by omega)
    (by omega) (by decide) (by omega) (by omega) mem3
  exact ⟨_, mem1, _, mem3, mem4, by simp, by simp, by simp, h1, by simp, by simp, h3, h4⟩

/-- The hypotheses of `C90_gesdd_compose` are met: `U` and `VT` are identity matrices and `S` is the band matrix. -/
example : ∃ (mem mem1 mem2 mem3 mem4 : Buf × Nat → ℂ) (S : Matrix (Fin 7) (Fin 5) ℂ), mem (.usr 0, 3) ≠ 0 ∧
    Exec (sdEnv 1 2 7 5 8) (sdReduce lkern 1 2 7 5) mem mem1 ∧
    (∀ x, mem2 (.til 0, x) = mem1 (.til 0, x)) ∧ (∀ x, mem2 (.usr 1, x) = mem1 (.usr 1, x)) ∧
    Exec (svEnv 1 2 7 5 7 8 5 6) (sdApplyU 1 2 7 5 7 5) mem2 mem3 ∧
    Exec (svEnv 1 2 7 5 7 8 5 6) (sdApplyV 1 2 7 5 7 5) mem3 mem4 ∧
    (∀ r c, (Matrix.of (fun (r : Fin 7) (c : Fin 7) => mem2 (.usr 3, r.1 + c.1 * 8)) * S *
        Matrix.of (fun (r : Fin 5) (c : Fin 5) => mem2 (.usr 4, r.1 + c.1 * 6))) r c = if 5 ≤ 7 then
          if r.1 ≤ c.1 ∧ c.1 ≤ r.1 + 2 then mem1 (.usr 2, 2 * 2 + r.1 + c.1 * (3 * 2 + 1) - c.1) else 0
        else if c.1 ≤ r.1 ∧ r.1 ≤ c.1 + 2 then mem1 (.usr 2, 2 + r.1 + c.1 * (3 * 2 + 1) - c.1) else 0) ∧
    (Matrix.of (fun (r : Fin 7) (c : Fin 7) => mem2 (.usr 3, r.1 + c.1 * 8)))ᴴ *
      Matrix.of (fun (r : Fin 7) (c : Fin 7) => mem2 (.usr 3, r.1 + c.1 * 8)) = 1 ∧
    Matrix.of (fun (r : Fin 5) (c : Fin 5) => mem2 (.usr 4, r.1 + c.1 * 6)) *
      (Matrix.of (fun (r : Fin 5) (c : Fin 5) => mem2 (.usr 4, r.1 + c.1 * 6)))ᴴ = 1 := by
  obtain ⟨mem1, h1⟩ := sdReduce_exists (lkern_spec (𝕜 := ℂ)) (ib := 1) (nb := 2) (m := 7) (n := 5) (lda := 8) (by omega) (by omega)
    (by omega) (fun x => if x.1 = .usr 0 then 1 else 0)
  let mem2 : Buf × Nat → ℂ := fun x => if x.1 = .usr 3 then if x.2 % 9 = 0 then 1 else 0
    else if x.1 = .usr 4 then if x.2 % 7 = 0 then 1 else 0 else mem1 x
  obtain ⟨mem3, h3⟩ := sdApplyU_exists (ib := 1) (nb := 2) (m := 7) (n := 5) (un := 7) (ldu := 8) (vm := 5) (ldvt := 6) (by omega)
    (by omega) (by decide) (by omega) (by omega) mem2
  obtain ⟨mem4, h4⟩ := sdApplyV_exists (ib := 1) (nb := 2) (m := 7) (n := 5) (un := 7) (ldu := 8) (vm := 5) (ldvt := 6) (by omega)
    (by omega) (by decide) (by omega) (by omega) mem3
  have eU : Matrix.of (fun (r : Fin 7) (c : Fin 7) => mem2 (.usr 3, r.1 + c.1 * 8)) = 1 := by
    ext r c
    rw [Matrix.one_apply, Matrix.of_apply]
    simp only [mem2, if_true]
    exact if_congr (by rw [Fin.ext_iff]; omega) rfl rfl
  have eV : Matrix.of (fun (r : Fin 5) (c : Fin 5) => mem2 (.usr 4, r.1 + c.1 * 6)) = 1 := by
    ext r c
    rw [Matrix.one_apply, Matrix.of_apply]
    simp only [mem2, if_true, Buf.usr.injEq, show ¬ (4 : Nat) = 3 by decide, if_false]
    exact if_congr (by rw [Fin.ext_iff]; omega) rfl rfl
  refine ⟨_, mem1, mem2, mem3, mem4, Matrix.of fun r c => if r.1 ≤ c.1 ∧ c.1 ≤ r.1 + 2 then
    mem1 (.usr 2, 2 * 2 + r.1 + c.1 * (3 * 2 + 1) - c.1) else 0, by simp, h1, by simp [mem2], by simp [mem2], h3, h4, ?_, ?_, ?_⟩
  · intro r c
    rw [eU, eV, Matrix.one_mul, Matrix.mul_one, if_pos (by omega)]
    rfl
  · rw [eU, Matrix.conjTranspose_one, Matrix.one_mul]
  · rw [eV, Matrix.conjTranspose_one, Matrix.one_mul]

end Verif.Props

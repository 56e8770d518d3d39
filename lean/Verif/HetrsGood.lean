/-
The tasks of the solve with the factors of `plasma_zhetrf` are good: they stay inside the matrices and conflicting ones are ordered.
-/
import Verif.Hetrs

set_option linter.unusedSectionVars false

namespace Verif.Tile

open Verif.Layout Verif.Sched Verif.LU Verif.Panel Finset

universe u v

variable {M : Type u} [DecidableEq M] {α : Type v}

theorem GoodC.phases {valid : Foot M} {P Q : List (TTask M α)} (hP : GoodC valid P) (hQ : GoodC valid Q)
    (h : ∀ t ∈ P, ∀ t' ∈ Q, t.phase < t'.phase) : GoodC valid (P ++ Q) where
  loc := fun t ht => (List.mem_append.mp ht).elim (hP.loc t) (hQ.loc t)
  ins := fun t ht => (List.mem_append.mp ht).elim (hP.ins t) (hQ.ins t)
  cov := hP.cov.phases hQ.cov h

section
variable [Field α] [StarRing α] [DecidableEq α] {dv : α → α → α} {E : IntCode α}
variable {A B T P Q : TMat M} {b N Nn : Nat} {env : M → MatEnv}

/-- The interchanges alone. -/
theorem geswp_goodC (h : SwpFit env b B P B.d.m) {rg fwd : Bool} : GoodC (evalid env) (pzgeswp rg E true fwd B P) where
  loc := pzgeswp_rows_local h.fa.al h.fp.al
  ins := pzgeswp_rows_inside h
  cov := by
    have := geswp_cov_rows (rg := rg) (E := E) (fwd := fwd) h.fa.al h.ne (L1 := []) (L2 := [])
      (by intro i j t t' _ hi; simp at hi) (by simp) (by simp) (by simp)
    simpa using this

theorem geswp_phase {rg fwd : Bool} : ∀ t ∈ pzgeswp rg E true fwd B P, t.phase = 0 := by
  intro t ht
  rw [pzgeswp_rows, mem_hub] at ht
  obtain ⟨n, hn, hh | rfl | hh⟩ := ht
  · obtain ⟨d, rfl⟩ := nops_rowPre B n t hh; rfl
  · rfl
  · obtain ⟨d, rfl⟩ := nops_rowPost B n t hh; rfl

/-- The matrices of the solve in memory. -/
structure HsFit (env : M → MatEnv) (b : Nat) (A T P Q B : TMat M) : Prop where
  fa : FitsOn env b (fun i j => j ≤ i) A
  ft : FitsOn env b (bTile none b b b) T
  fp : Fits env b P
  fq : Fits env b Q
  fb : Fits env b B
  pm : P.d.m = B.d.m
  pn : P.d.n = 1

theorem phT_mem {p : Nat} {L : List (TTask M α)} : ∀ t ∈ L.map (phT p), t.phase = p := by
  intro t ht
  obtain ⟨t', -, rfl⟩ := List.mem_map.mp ht
  rfl

theorem hetrsL_good (h : HsOK b N Nn A T P Q B) (hF : HsFit env b A T P Q B) (hbN : b < N) (φ : Nat) (rg : Bool) :
    GoodC (evalid env) (hetrsL φ rg E dv A T P Q B) ∧
    ∀ t ∈ hetrsL φ rg E dv A T P Q B, φ < t.phase ∧ t.phase ≤ φ + 4 + 2 * (B.d.mt * B.d.nt) := by
  have hsw : SwpFit env b B P B.d.m := ⟨hF.fb, hF.fp, h.pb.symm, hF.pn, by rw [hF.pm]⟩
  have hgs : ∀ (fwd : Bool) p, GoodC (evalid env) ((pzgeswp rg E true fwd B P).map (phT p)) := fun fwd p =>
    goodC_phT (geswp_goodC hsw) geswp_phase
  have htr : ∀ t, Good (evalid env) (pztrsm dv .left .lower t .unit 1 (A.sub b 0 (N - b) (N - b)) (B.sub b 0 (N - b) Nn)) := by
    intro t
    refine pztrsm_good (Mm := N - b) (Nn := Nn)
      (TMat.subr_fits hF.fa (by rw [h.am]; omega) (by rw [h.an]; omega) (fun q p hq => ?_))
      (TMat.subr_fits hF.fb (by rw [h.tb.m]; omega) (by rw [h.tb.n]) (fun _ _ h => h)) rfl rfl ?_ ?_
    · simp only [inTri] at hq; omega
    · show N - b ≤ N - b; omega
    · show N - b ≤ N - b; omega
  have hgb : PhSeq (φ + 3) (φ + 3 + 2 * (B.d.mt * B.d.nt)) (gbSolve (φ + 3) E dv .noTrans T Q B) :=
    gbSolve_phases h.tb hF.ft hF.fb (φ + 3)
  have hloc := gbSolve_loc (E := E) (dv := dv) (t := .noTrans) h.tb hF.ft hF.fb hF.fq (φ := φ + 3)
  have hseq : PhSeq (φ + 3) (φ + 3 + 2 * (B.d.mt * B.d.nt)) (gbSolve (φ + 3) E dv .noTrans T Q B ++
      (pztrsm dv .left .lower .conjTrans .unit 1 (A.sub b 0 (N - b) (N - b)) (B.sub b 0 (N - b) Nn)).map
        (phT (φ + 3 + 2 * (B.d.mt * B.d.nt)))) := by
    refine hgb.append (PhSeq.const fun t ht => ⟨?_, phT_mem t ht⟩)
    exact (good_phT (htr _)).decl t ht
  have hmid : GoodC (evalid env) (gbSolve (φ + 3) E dv .noTrans T Q B ++
      (pztrsm dv .left .lower .conjTrans .unit 1 (A.sub b 0 (N - b) (N - b)) (B.sub b 0 (N - b) Nn)).map
        (phT (φ + 3 + 2 * (B.d.mt * B.d.nt)))) := by
    refine ⟨fun t ht => ?_, fun t ht => ?_, hseq.cov⟩
    · rcases List.mem_append.mp ht with ht | ht
      · exact (hloc t ht).1
      · exact (good_phT (htr _)).loc t ht
    · rcases List.mem_append.mp ht with ht | ht
      · exact (hloc t ht).2
      · exact (good_phT (htr _)).ins t ht
  have e : hetrsL φ rg E dv A T P Q B =
      (pzgeswp rg E true true B P).map (phT (φ + 1)) ++
      ((pztrsm dv .left .lower .noTrans .unit 1 (A.sub b 0 (N - b) (N - b)) (B.sub b 0 (N - b) Nn)).map (phT (φ + 2)) ++
      ((gbSolve (φ + 3) E dv .noTrans T Q B ++
        (pztrsm dv .left .lower .conjTrans .unit 1 (A.sub b 0 (N - b) (N - b)) (B.sub b 0 (N - b) Nn)).map
          (phT (φ + 3 + 2 * (B.d.mt * B.d.nt)))) ++
      (pzgeswp rg E true false B P).map (phT (φ + 4 + 2 * (B.d.mt * B.d.nt))))) := by
    unfold hetrsL
    rw [h.a.nb, h.am, h.an, h.tb.b.nb, h.tb.m, h.tb.n, if_pos hbN, if_pos hbN]
    simp only [List.append_assoc]
  have hm : ∀ t ∈ gbSolve (φ + 3) E dv .noTrans T Q B ++
      (pztrsm dv .left .lower .conjTrans .unit 1 (A.sub b 0 (N - b) (N - b)) (B.sub b 0 (N - b) Nn)).map
        (phT (φ + 3 + 2 * (B.d.mt * B.d.nt))), φ + 3 ≤ t.phase ∧ t.phase ≤ φ + 3 + 2 * (B.d.mt * B.d.nt) := fun t ht =>
    ⟨(hseq.mem t ht).1, (hseq.mem t ht).2.1⟩
  rw [e]
  constructor
  · refine (hgs true _).phases (((good_phT (htr _)).toC).phases (hmid.phases (hgs false _) ?_) ?_) ?_
    · intro t ht t' ht'
      rw [phT_mem t' ht']; have := hm t ht; omega
    · intro t ht t' ht'
      rw [phT_mem t ht]
      rcases List.mem_append.mp ht' with ht' | ht'
      · have := hm t' ht'; omega
      · rw [phT_mem t' ht']; omega
    · intro t ht t' ht'
      rw [phT_mem t ht]
      rcases List.mem_append.mp ht' with ht' | ht'
      · rw [phT_mem t' ht']; omega
      · rcases List.mem_append.mp ht' with ht' | ht'
        · have := hm t' ht'; omega
        · rw [phT_mem t' ht']; omega
  · intro t ht
    rcases List.mem_append.mp ht with ht' | ht'
    · rw [phT_mem t ht']; omega
    · rcases List.mem_append.mp ht' with ht' | ht'
      · rw [phT_mem t ht']; omega
      · rcases List.mem_append.mp ht' with ht' | ht'
        · have := hm t ht'; omega
        · rw [phT_mem t ht']; omega

end

end Verif.Tile

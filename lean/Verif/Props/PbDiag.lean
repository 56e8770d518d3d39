/-
`plasma_zpbsv` for diagonal matrices (`kd = 0`): after a failure part of the right-hand sides may have been overwritten.
-/
import Verif.Props.BandFail
import Verif.Order

namespace Verif.Props

open Verif.Sched Verif.Tile

/-- `diag(4, -1)` and the right-hand side `(4, 1)`. -/
noncomputable def pbD : Buf × Nat → ℝ
  | (.usr 0, 0) => 4
  | (.usr 0, 1) => -1
  | (.usr 1, 0) => 4
  | _ => 1

theorem op0_at {M : Type} {α : Type} {c : M} {fc : Nat → Nat → Prop} {g : Tl α → Tl α} {s : Store M α} {i j : Nat} (h : fc i j) :
    (op0 c fc g).run s c i j = g (s c) i j := TTask.run_wr _ _ (by exact ⟨rfl, h⟩)

theorem op1_at {M : Type} {α : Type} {a c : M} {fa fc : Nat → Nat → Prop} {g : Tl α → Tl α → Tl α} {s : Store M α} {i j : Nat} (h : fc i j) :
    (op1 a fa c fc g).run s c i j = g (s a) (s c) i j := TTask.run_wr _ _ (by exact ⟨rfl, h⟩)

theorem op0_off {M : Type} {α : Type} {c x : M} {fc : Nat → Nat → Prop} {g : Tl α → Tl α} {s : Store M α} {i j : Nat} (h : x ≠ c) :
    (op0 c fc g).run s x i j = s x i j := TTask.run_frame _ _ (by rintro ⟨e, -⟩; exact h e)

theorem op1_off {M : Type} {α : Type} {a c x : M} {fa fc : Nat → Nat → Prop} {g : Tl α → Tl α → Tl α} {s : Store M α} {i j : Nat} (h : x ≠ c) :
    (op1 a fa c fc g).run s x i j = s x i j := TTask.run_frame _ _ (by rintro ⟨e, -⟩; exact h e)

/-- The items of the `depend` clauses of the fourteen tasks. -/
def pbDK : List (List ((Buf × Nat) × Bool)) :=
  [[((.usr 0, 0), false), ((.til 0, 0), true)], [((.usr 0, 1), false), ((.til 0, 1), true)],
  [((.usr 1, 0), false), ((.til 1, 0), true)], [((.usr 1, 1), false), ((.til 1, 1), true)],
  [((.til 0, 0), true)], [((.til 0, 1), true)], [((.til 0, 0), false), ((.til 1, 0), true)],
  [((.til 0, 1), false), ((.til 1, 1), true)], [((.til 0, 1), false), ((.til 1, 1), true)],
  [((.til 0, 0), false), ((.til 1, 0), true)], [((.til 0, 0), false), ((.usr 0, 0), true)],
  [((.til 0, 1), false), ((.usr 0, 1), true)], [((.til 1, 0), false), ((.usr 1, 0), true)],
  [((.til 1, 1), false), ((.usr 1, 1), true)]]

instance {X : Type} [DecidableEq X] (l l' : List (X × Bool)) : Decidable (KDep l l') := by unfold KDep; infer_instance

section
variable (pk : Uplo → Nat → Tl ℝ → Tl ℝ) (info : Uplo → Nat → Tl ℝ → Nat)

local notation "PD" => zpbsv (𝕜 := ℝ) 1 pk info rdv Uplo.lower 2 0 1 1 2
local notation "ED" => BPar.env (pbPar 1 Uplo.lower 2 0 1 1 2 2)

theorem pbD_keys : (PD).map (fun t => dkeys ED t.task) = pbDK := rfl

theorem pbD_phase : (PD).map (fun t => t.task.phase) = List.replicate 14 0 := rfl

theorem pbD_rdy {o : List Nat} {i : Nat} {t : GTTask (Buf × Nat × Nat) ℝ} (ht : (PD)[i]? = some t)
    (h : ∀ b < i, b ∉ o → ¬ KDep (pbDK.getD b []) (pbDK.getD i [])) : RdyO ED (PD) o i t := by
  have k : ∀ (b : Nat) x, (PD)[b]? = some x → dkeys ED x.task = pbDK.getD b [] ∧ x.task.phase = 0 := by
    intro b x hx
    constructor
    · rw [← pbD_keys pk info, List.getD_eq_getElem?_getD, List.getElem?_map, hx]; rfl
    · have := pbD_phase pk info
      have h2 : ((PD).map (fun t => t.task.phase))[b]? = some x.task.phase := by rw [List.getElem?_map, hx]; rfl
      rw [this] at h2
      exact (List.mem_replicate.mp (List.mem_of_getElem? h2)).2
  intro b x hb hbo hx
  rw [(k b x hx).1, (k b x hx).2, (k i t ht).1, (k i t ht).2]
  exact ⟨lt_irrefl 0, h b hb hbo⟩

variable {pk info}

theorem potrf4 (hpk : IsPotrf pk info) {T : Tl ℝ} (h : T 0 0 = 4) : info .lower 1 T = 0 ∧ pk .lower 1 T 0 0 = 2 := by
  have h0 : info .lower 1 T = 0 := by
    by_contra hn
    obtain ⟨i, hi⟩ := Nat.exists_eq_succ_of_ne_zero hn
    obtain ⟨k1, -, k2⟩ := hpk.bad _ _ _ _ hi
    obtain rfl : i = 0 := by omega
    refine k2 ⟨fun _ _ => 2, ?_, ?_⟩
    · intro i _; exact ⟨by simp, by simp⟩
    · intro r c hc hr
      obtain rfl : r = 0 := by omega
      obtain rfl : c = 0 := by omega
      simp [hd, lowE, reP, h]; norm_num
  refine ⟨h0, ?_⟩
  have k := hpk.ok _ _ _ h0
  have k1 := (k.pos 0 (by decide)).2
  have k2 := k.eq 0 0 le_rfl (by decide)
  simp [hd, lowE, reP, h] at k1 k2
  nlinarith

theorem potrfm (hpk : IsPotrf pk info) {T : Tl ℝ} (h : T 0 0 = -1) : info .lower 1 T = 1 := by
  have h0 : info .lower 1 T ≠ 0 := by
    intro h0
    have k := hpk.ok _ _ _ h0
    have k2 := k.eq 0 0 le_rfl (by decide)
    simp [hd, lowE, reP, h] at k2
    nlinarith [mul_self_nonneg (pk .lower 1 T 0 0)]
  obtain ⟨i, hi⟩ := Nat.exists_eq_succ_of_ne_zero h0
  obtain ⟨k1, -, -⟩ := hpk.bad _ _ _ _ hi
  omega

theorem l2t_at {a c : Buf × Nat × Nat} {s : Store (Buf × Nat × Nat) ℝ} {k : Nat} (hk : k < 2) :
    TTask.run (coreL2t (some .lower) k k 1 1 1 0 0 a c) s c 0 0 = s a 0 0 := by
  unfold coreL2t
  have e : l2tSteps (some .lower) (k : Nat) (k : Nat) (1 : Nat) (1 : Nat) (1 : Nat) (0 : Nat) (0 : Nat) = [(0, 0, true)] := by
    interval_cases k <;> decide +kernel
  rw [op1_at ⟨true, by rw [e]; simp⟩, e]
  rfl

theorem trsm_at {t : Trans} {a c : Buf × Nat × Nat} {s : Store (Buf × Nat × Nat) ℝ} (ha : s a 0 0 = 2) :
    TTask.run (coreTrsm rdv .left .lower t .nonUnit 1 1 1 a c) s c 0 0 = s c 0 0 / 2 := by
  unfold coreTrsm
  rw [op1_at ⟨Nat.one_pos, Nat.one_pos⟩]
  have h0 : ∀ (T : Nat → Nat → ℝ) (b : Nat → ℝ), lsolve rdv T b 0 = rdv (b 0) (T 0 0) := by
    intro T b
    rw [lsolve_eq]
    simp
  cases t <;> simp [trsmK, tsolve, opLow, h0, opE, trE, ha, rdv]

theorem zpbsv_good {nb : Nat} (hnb : 0 < nb) (hpk : IsPotrf pk info) (dv : ℝ → ℝ → ℝ) (u : Uplo) (n kd nrhs ldab ldb : Nat) (hl : kd + 1 ≤ ldab)
    (hl' : n ≤ ldb) : Good (evalid (pbPar nb u n kd ldab nrhs ldb ldb).env) (tasks (zpbsv nb pk info dv u n kd nrhs ldab ldb)) := by
  have hp : (pbPar nb u n kd ldab nrhs ldb ldb).OK := pbPar_ok hnb hl hl' hl'
  unfold zpbsv
  simp only
  split
  · simp [tasks, Good.nil]
  · rw [tasks_append, tasks_append, tasks_append, tasks_append, tasks_okT, tasks_rawT, tasks_okT, tasks_rawT]
    refine Good.append (Good.append ((BPar.in_good hp).append (BPar.geIn_good hp)) ?_)
      ((BPar.out_good hp).append (BPar.geOut_good hp))
    unfold ompZpbsv
    split
    · simp [tasks, Good.nil]
    · rw [tasks_append, tasks_okT]
      exact (pzpbtrf_good (N := n) hpk (pb_fits hp) pb_bkt_pos rfl rfl).append (pbSolve_good hp)

/-- **C85, `plasma_zpbsv`, refuted for diagonal matrices.** `nb = 1`, `n = 2`, `kd = 0`: an execution that returns 2 after it has
overwritten the first right-hand side with the solution of the first equation. -/
theorem C85_pbsv_diag_refuted (hpk : IsPotrf pk info) :
    ∃ mem', GExec ED (PD) pbD mem' 2 ∧ mem' (.usr 1, 0) = 1 ∧ pbD (.usr 1, 0) = 4 := by
  have e0 : (PD)[0]? = some ⟨coreL2t (some .lower) 0 0 1 1 1 0 0 (.usr 0, 0, 0) (.til 0, 0, 0), false, fun _ => 0⟩ := rfl
  have e1 : (PD)[1]? = some ⟨coreL2t (some .lower) 1 1 1 1 1 0 0 (.usr 0, 1, 1) (.til 0, 1, 1), false, fun _ => 0⟩ := rfl
  have e2 : (PD)[2]? = some ⟨lacpyRect 0 1 0 1 (.usr 1, 0, 0) (.til 1, 0, 0), true, fun _ => 0⟩ := rfl
  have e4 : (PD)[4]? = some (corePotrf pk info .lower 1 (.til 0, 0, 0) 0) := rfl
  have e5 : (PD)[5]? = some (corePotrf pk info .lower 1 (.til 0, 1, 1) 1) := rfl
  have e6 : (PD)[6]? = some ⟨coreTrsm rdv .left .lower .noTrans .nonUnit 1 1 1 (.til 0, 0, 0) (.til 1, 0, 0), true, fun _ => 0⟩ := rfl
  have e9 : (PD)[9]? = some ⟨coreTrsm rdv .left .lower .conjTrans .nonUnit 1 1 1 (.til 0, 0, 0) (.til 1, 0, 0), true, fun _ => 0⟩ := rfl
  have e12 : (PD)[12]? = some ⟨lacpyRect 0 1 0 1 (.til 1, 0, 0) (.usr 1, 0, 0), true, fun _ => 0⟩ := rfl
  have r0 := pbD_rdy pk info (o := []) e0 (by decide)
  have r1 := pbD_rdy pk info (o := [0]) e1 (by decide)
  have r2 := pbD_rdy pk info (o := [1, 0]) e2 (by decide)
  have r4 := pbD_rdy pk info (o := [2, 1, 0]) e4 (by decide)
  have r6 := pbD_rdy pk info (o := [4, 2, 1, 0]) e6 (by decide)
  have r9 := pbD_rdy pk info (o := [6, 4, 2, 1, 0]) e9 (by decide)
  have r12 := pbD_rdy pk info (o := [9, 6, 4, 2, 1, 0]) e12 (by decide)
  have r5 := pbD_rdy pk info (o := [12, 9, 6, 4, 2, 1, 0]) e5 (by decide)
  have hp : (pbPar 1 .lower 2 0 1 1 2 2).OK := pbPar_ok (by decide) (by decide) (by decide) (by decide)
  have hg : Good (evalid ED) (tasks (PD)) := zpbsv_good (by decide) hpk rdv .lower 2 0 1 1 2 (by decide) (by decide)
  have hco : CodeOK (PD) := by
    unfold zpbsv ompZpbsv pbSolve
    simp only
    rw [if_neg (by decide), if_neg (by decide)]
    exact (((codeOK_raw _).append (CodeOK.ok _)).append ((pzpbtrf_codeOK (N := 2) hpk (BPar.al_tA hp) rfl rfl).append (CodeOK.ok _))).append
      ((codeOK_raw _).append (CodeOK.ok _))
  obtain ⟨s0, hs0⟩ : ∃ s, s = view (eloc ED) pbD := ⟨_, rfl⟩
  have v0 : s0 (.usr 0, 0, 0) 0 0 = 4 := by rw [hs0]; rfl
  have v1 : s0 (.usr 0, 1, 1) 0 0 = -1 := by rw [hs0]; rfl
  have v2 : s0 (.usr 1, 0, 0) 0 0 = 4 := by rw [hs0]; rfl
  have c0 := Sch.cons (Sch.nil (env := ED) (P := PD) (s0 := s0)) 0 _ e0 (by decide) r0 rfl
  obtain ⟨s1, hs1⟩ : ∃ s, s = TTask.run (coreL2t (some .lower) 0 0 1 1 1 0 0 (Buf.usr 0, 0, 0) (Buf.til 0, 0, 0)) s0 := ⟨_, rfl⟩
  have a1 : s1 (.til 0, 0, 0) 0 0 = 4 := by rw [hs1, l2t_at (by decide), v0]
  have b1 : s1 (.usr 0, 1, 1) 0 0 = -1 := by rw [hs1, coreL2t, op1_off (by decide), v1]
  have d1 : s1 (.usr 1, 0, 0) 0 0 = 4 := by rw [hs1, coreL2t, op1_off (by decide), v2]
  rw [← hs1] at c0
  have c1 := Sch.cons c0 1 _ e1 (by decide) r1 rfl
  obtain ⟨s2, hs2⟩ : ∃ s, s = TTask.run (coreL2t (some .lower) 1 1 1 1 1 0 0 (Buf.usr 0, 1, 1) (Buf.til 0, 1, 1)) s1 := ⟨_, rfl⟩
  have a2 : s2 (.til 0, 0, 0) 0 0 = 4 := by rw [hs2, coreL2t, op1_off (by decide), a1]
  have b2 : s2 (.til 0, 1, 1) 0 0 = -1 := by rw [hs2, l2t_at (by decide), b1]
  have d2 : s2 (.usr 1, 0, 0) 0 0 = 4 := by rw [hs2, coreL2t, op1_off (by decide), d1]
  rw [← hs2] at c1
  have c2 := Sch.cons c1 2 _ e2 (by decide) r2 rfl
  obtain ⟨s3, hs3⟩ : ∃ s, s = TTask.run (lacpyRect 0 1 0 1 (Buf.usr 1, 0, 0) (Buf.til 1, 0, 0)) s2 := ⟨_, rfl⟩
  have a3 : s3 (.til 0, 0, 0) 0 0 = 4 := by rw [hs3, lacpyRect, op1_off (by decide), a2]
  have b3 : s3 (.til 0, 1, 1) 0 0 = -1 := by rw [hs3, lacpyRect, op1_off (by decide), b2]
  have d3 : s3 (.til 1, 0, 0) 0 0 = 4 := by rw [hs3, lacpyRect, op1_at (by simp [rect]), d2]
  rw [← hs3] at c2
  have c4 := Sch.cons c2 4 _ e4 (by decide) r4 (by simp [corePotrf, (potrf4 hpk a3).1])
  obtain ⟨s4, hs4⟩ : ∃ s, s = TTask.run (corePotrf pk info .lower 1 (Buf.til 0, 0, 0) 0).task s3 := ⟨_, rfl⟩
  have a4 : s4 (.til 0, 0, 0) 0 0 = 2 := by
    rw [hs4]
    exact (op0_at (by simp [tri, inTri])).trans (potrf4 hpk a3).2
  have b4 : s4 (.til 0, 1, 1) 0 0 = -1 := by rw [hs4]; exact (op0_off (by decide)).trans b3
  have d4 : s4 (.til 1, 0, 0) 0 0 = 4 := by rw [hs4]; exact (op0_off (by decide)).trans d3
  rw [← hs4] at c4
  have c6 := Sch.cons c4 6 _ e6 (by decide) r6 rfl
  obtain ⟨s6, hs6⟩ : ∃ s, s = TTask.run (coreTrsm rdv .left .lower .noTrans .nonUnit 1 1 1 (Buf.til 0, 0, 0) (Buf.til 1, 0, 0)) s4 := ⟨_, rfl⟩
  have a6 : s6 (.til 0, 0, 0) 0 0 = 2 := by rw [hs6, coreTrsm, op1_off (by decide), a4]
  have b6 : s6 (.til 0, 1, 1) 0 0 = -1 := by rw [hs6, coreTrsm, op1_off (by decide), b4]
  have d6 : s6 (.til 1, 0, 0) 0 0 = 2 := by rw [hs6, trsm_at a4, d4]; norm_num
  rw [← hs6] at c6
  have c9 := Sch.cons c6 9 _ e9 (by decide) r9 rfl
  obtain ⟨s9, hs9⟩ : ∃ s, s = TTask.run (coreTrsm rdv .left .lower .conjTrans .nonUnit 1 1 1 (Buf.til 0, 0, 0) (Buf.til 1, 0, 0)) s6 := ⟨_, rfl⟩
  have b9 : s9 (.til 0, 1, 1) 0 0 = -1 := by rw [hs9, coreTrsm, op1_off (by decide), b6]
  have d9 : s9 (.til 1, 0, 0) 0 0 = 1 := by rw [hs9, trsm_at a6, d6]; norm_num
  rw [← hs9] at c9
  have c12 := Sch.cons c9 12 _ e12 (by decide) r12 rfl
  obtain ⟨s12, hs12⟩ : ∃ s, s = TTask.run (lacpyRect 0 1 0 1 (Buf.til 1, 0, 0) (Buf.usr 1, 0, 0)) s9 := ⟨_, rfl⟩
  have b12 : s12 (.til 0, 1, 1) 0 0 = -1 := by rw [hs12, lacpyRect, op1_off (by decide), b9]
  have d12 : s12 (.usr 1, 0, 0) 0 0 = 1 := by rw [hs12, lacpyRect, op1_at (by simp [rect]), d9]
  rw [← hs12] at c12
  have hcode : (corePotrf pk info .lower 1 (Buf.til 0, 1, 1) 1).code s12 = 2 := by simp [corePotrf, potrfm hpk b12]
  rw [hs0] at c12
  obtain ⟨mem', h1, h2⟩ := c12.fails hp.wf (fun x hx => hg.loc _ (List.mem_map_of_mem hx)) (fun x hx => hg.ins _ (List.mem_map_of_mem hx)) hco pbD e5 (by decide) r5 (by rw [hcode]; decide)
  rw [hcode] at h1
  refine ⟨mem', h1, ?_, rfl⟩
  have := h2 (.usr 1, 0, 0) 0 0 ⟨⟨by decide, by decide⟩, trivial⟩
  exact this.trans ((op0_off (by decide)).trans d12)
end

end Verif.Props

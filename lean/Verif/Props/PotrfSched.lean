/-
C86: the contents of the matrix after a failing `plasma_zpotrf` depend on the schedule.
-/
import Verif.Props.PotrfFail
import Verif.Props.PbDiag

namespace Verif.Props

open Verif.Sched Verif.Tile

/-- `[4 2; 2 -1]`, lower triangle, leading dimension 2; the other triangle holds 1. -/
noncomputable def poD : Buf × Nat → ℝ
  | (.usr 0, 0) => 4
  | (.usr 0, 1) => 2
  | (.usr 0, 3) => -1
  | _ => 1

/-- Readiness from a table of the `depend` clauses. -/
theorem rdy_keys {M : Type} {α : Type} {env : M → MatEnv} {P : List (GTTask (M × Nat × Nat) α)} {T : List (List ((M × Nat) × Bool))} {N : Nat}
    (hT : P.map (fun t => dkeys env t.task) = T) (hph : P.map (fun t => t.task.phase) = List.replicate N 0)
    {o : List Nat} {i : Nat} {t : GTTask (M × Nat × Nat) α} (ht : P[i]? = some t)
    (h : ∀ b < i, b ∉ o → ¬ KDep (T.getD b []) (T.getD i [])) : RdyO env P o i t := by
  have k : ∀ (b : Nat) x, P[b]? = some x → dkeys env x.task = T.getD b [] ∧ x.task.phase = 0 := by
    intro b x hx
    constructor
    · rw [← hT, List.getD_eq_getElem?_getD, List.getElem?_map, hx]; rfl
    · have h2 : (P.map (fun t => t.task.phase))[b]? = some x.task.phase := by rw [List.getElem?_map, hx]; rfl
      rw [hph] at h2
      exact (List.mem_replicate.mp (List.mem_of_getElem? h2)).2
  intro b x hb hbo hx
  rw [(k b x hx).1, (k b x hx).2, (k i t ht).1, (k i t ht).2]
  exact ⟨lt_irrefl 0, h b hb hbo⟩

/-- The items of the `depend` clauses of the ten tasks. -/
def poDK : List (List ((Buf × Nat) × Bool)) :=
  [[((.usr 0, 0), false), ((.til 0, 0), true)], [((.usr 0, 1), false), ((.til 0, 1), true)],
  [((.usr 0, 3), false), ((.til 0, 2), true)], [((.til 0, 0), true)],
  [((.til 0, 0), false), ((.til 0, 1), true)], [((.til 0, 1), false), ((.til 0, 2), true)],
  [((.til 0, 2), true)], [((.til 0, 0), false), ((.usr 0, 0), true)],
  [((.til 0, 1), false), ((.usr 0, 1), true)], [((.til 0, 2), false), ((.usr 0, 3), true)]]

section
variable {pk : Uplo → Nat → Tl ℝ → Tl ℝ} {info : Uplo → Nat → Tl ℝ → Nat}

local notation "PO" => zpotrf (𝕜 := ℝ) 1 pk info rdv Uplo.lower 2
local notation "EO" => drvEnvK 1 (potDims 2) (ld1 2) (fun _ => some Uplo.lower)

theorem potrfneg (hpk : IsPotrf pk info) {T : Tl ℝ} (h : T 0 0 < 0) : info .lower 1 T = 1 := by
  have h0 : info .lower 1 T ≠ 0 := by
    intro h0
    have k := hpk.ok _ _ _ h0
    have k2 := k.eq 0 0 le_rfl (by decide)
    simp [hd, lowE, reP] at k2
    nlinarith [mul_self_nonneg (pk .lower 1 T 0 0)]
  obtain ⟨i, hi⟩ := Nat.exists_eq_succ_of_ne_zero h0
  obtain ⟨k1, -, -⟩ := hpk.bad _ _ _ _ hi
  omega

/-- **C86, the schedule matters.** Two executions of the same call of `plasma_zpotrf`, with the same arguments and the same return value 2: one leaves
the matrix as it was, the other has replaced its first element by that of the factor. -/
theorem C86_schedule_refuted (hpk : IsPotrf pk info) :
    ∃ mem1 mem2, GExec EO (PO) poD mem1 2 ∧ GExec EO (PO) poD mem2 2 ∧ mem1 (.usr 0, 0) = 4 ∧ mem2 (.usr 0, 0) = 2 := by
  have hT : (PO).map (fun t => dkeys EO t.task) = poDK := rfl
  have hP : (PO).map (fun t => t.task.phase) = List.replicate 10 0 := rfl
  have e0 : (PO)[0]? = some ⟨lacpyRect 0 1 0 1 (.usr 0, 0, 0) (.til 0, 0, 0), true, fun _ => 0⟩ := rfl
  have e1 : (PO)[1]? = some ⟨lacpyRect 0 1 0 1 (.usr 0, 1, 0) (.til 0, 1, 0), true, fun _ => 0⟩ := rfl
  have e2 : (PO)[2]? = some ⟨lacpyRect 0 1 0 1 (.usr 0, 1, 1) (.til 0, 1, 1), true, fun _ => 0⟩ := rfl
  have e3 : (PO)[3]? = some (corePotrf pk info .lower 1 (.til 0, 0, 0) 0) := rfl
  have e4 : (PO)[4]? = some ⟨coreTrsm rdv .right .lower .conjTrans .nonUnit 1 1 1 (.til 0, 0, 0) (.til 0, 1, 0), true, fun _ => 0⟩ := rfl
  have e5 : (PO)[5]? = some ⟨coreRk true reP .lower .noTrans 1 1 (-1) (.til 0, 1, 0) 1 (.til 0, 1, 1), true, fun _ => 0⟩ := rfl
  have e6 : (PO)[6]? = some (corePotrf pk info .lower 1 (.til 0, 1, 1) 1) := rfl
  have e7 : (PO)[7]? = some ⟨lacpyRect 0 1 0 1 (.til 0, 0, 0) (.usr 0, 0, 0), true, fun _ => 0⟩ := rfl
  have r0 := rdy_keys hT hP (o := []) e0 (by decide)
  have r1 := rdy_keys hT hP (o := [0]) e1 (by decide)
  have r2 := rdy_keys hT hP (o := [1, 0]) e2 (by decide)
  have r3 := rdy_keys hT hP (o := [2, 1, 0]) e3 (by decide)
  have r4 := rdy_keys hT hP (o := [3, 2, 1, 0]) e4 (by decide)
  have r5 := rdy_keys hT hP (o := [4, 3, 2, 1, 0]) e5 (by decide)
  have r6 := rdy_keys hT hP (o := [5, 4, 3, 2, 1, 0]) e6 (by decide)
  have r7 := rdy_keys hT hP (o := [5, 4, 3, 2, 1, 0]) e7 (by decide)
  have r6' := rdy_keys hT hP (o := [7, 5, 4, 3, 2, 1, 0]) e6 (by decide)
  have hnb : 0 < 1 := Nat.one_pos
  have hgood := pot_good (𝕜 := ℝ) (lda := 2) (n := 2) (dv := rdv) (u := .lower) hnb hpk
  have hg := driverK_good (ins := [0]) (outs := [0]) hnb pot_sq hgood
  rw [← tasks_gdriverK] at hg
  have hwf := drvEnvK_wf hnb (pot_ld (n := 2) (lda := 2) le_rfl) (pot_sq (u := .lower))
  have hA := al_t (nb := 1) (dims := potDims 2) hnb 0
  have hz : PO = gdriverK 1 (potDims 2) (fun _ => some Uplo.lower) [0] (pzpotrf pk info rdv .lower (tMat 1 (potDims 2) 0)) [0] := rfl
  have hco : CodeOK (PO) := by
    rw [hz]
    exact ((CodeOK.ok _).append (pzpotrf_codeOK (N := 2) hpk hA rfl rfl)).append (CodeOK.ok _)
  have hL : ∀ x ∈ (PO), x.task.Local := fun x hx => hg.loc _ (List.mem_map_of_mem hx)
  have hN : ∀ x ∈ (PO), x.task.Inside (evalid EO) := fun x hx => hg.ins _ (List.mem_map_of_mem hx)
  obtain ⟨s0, hs0⟩ : ∃ s, s = view (eloc EO) poD := ⟨_, rfl⟩
  have u0 : s0 (.usr 0, 0, 0) 0 0 = 4 := by rw [hs0]; rfl
  have v0 : s0 (.usr 0, 1, 0) 0 0 = 2 := by rw [hs0]; rfl
  have w0 : s0 (.usr 0, 1, 1) 0 0 = -1 := by rw [hs0]; rfl
  have c0 := Sch.cons (Sch.nil (env := EO) (P := PO) (s0 := s0)) 0 _ e0 (by decide) r0 rfl
  obtain ⟨s1, hs1⟩ : ∃ s, s = TTask.run (lacpyRect 0 1 0 1 (Buf.usr 0, 0, 0) (Buf.til 0, 0, 0)) s0 := ⟨_, rfl⟩
  have a1 : s1 (.til 0, 0, 0) 0 0 = 4 := by rw [hs1, lacpyRect, op1_at (by simp [rect]), u0]
  have u1 : s1 (.usr 0, 0, 0) 0 0 = 4 := by rw [hs1, lacpyRect, op1_off (by decide), u0]
  have v1 : s1 (.usr 0, 1, 0) 0 0 = 2 := by rw [hs1, lacpyRect, op1_off (by decide), v0]
  have w1 : s1 (.usr 0, 1, 1) 0 0 = -1 := by rw [hs1, lacpyRect, op1_off (by decide), w0]
  rw [← hs1] at c0
  have c1 := Sch.cons c0 1 _ e1 (by decide) r1 rfl
  obtain ⟨s2, hs2⟩ : ∃ s, s = TTask.run (lacpyRect 0 1 0 1 (Buf.usr 0, 1, 0) (Buf.til 0, 1, 0)) s1 := ⟨_, rfl⟩
  have a2 : s2 (.til 0, 0, 0) 0 0 = 4 := by rw [hs2, lacpyRect, op1_off (by decide), a1]
  have b2 : s2 (.til 0, 1, 0) 0 0 = 2 := by rw [hs2, lacpyRect, op1_at (by simp [rect]), v1]
  have u2 : s2 (.usr 0, 0, 0) 0 0 = 4 := by rw [hs2, lacpyRect, op1_off (by decide), u1]
  have w2 : s2 (.usr 0, 1, 1) 0 0 = -1 := by rw [hs2, lacpyRect, op1_off (by decide), w1]
  rw [← hs2] at c1
  have c2 := Sch.cons c1 2 _ e2 (by decide) r2 rfl
  obtain ⟨s3, hs3⟩ : ∃ s, s = TTask.run (lacpyRect 0 1 0 1 (Buf.usr 0, 1, 1) (Buf.til 0, 1, 1)) s2 := ⟨_, rfl⟩
  have a3 : s3 (.til 0, 0, 0) 0 0 = 4 := by rw [hs3, lacpyRect, op1_off (by decide), a2]
  have b3 : s3 (.til 0, 1, 0) 0 0 = 2 := by rw [hs3, lacpyRect, op1_off (by decide), b2]
  have d3 : s3 (.til 0, 1, 1) 0 0 = -1 := by rw [hs3, lacpyRect, op1_at (by simp [rect]), w2]
  have u3 : s3 (.usr 0, 0, 0) 0 0 = 4 := by rw [hs3, lacpyRect, op1_off (by decide), u2]
  rw [← hs3] at c2
  have c3 := Sch.cons c2 3 _ e3 (by decide) r3 (by simp [corePotrf, (potrf4 hpk a3).1])
  obtain ⟨s4, hs4⟩ : ∃ s, s = TTask.run (corePotrf pk info .lower 1 (Buf.til 0, 0, 0) 0).task s3 := ⟨_, rfl⟩
  have a4 : s4 (.til 0, 0, 0) 0 0 = 2 := by rw [hs4]; exact (op0_at (by simp [tri, inTri])).trans (potrf4 hpk a3).2
  have b4 : s4 (.til 0, 1, 0) 0 0 = 2 := by rw [hs4]; exact (op0_off (by decide)).trans b3
  have d4 : s4 (.til 0, 1, 1) 0 0 = -1 := by rw [hs4]; exact (op0_off (by decide)).trans d3
  have u4 : s4 (.usr 0, 0, 0) 0 0 = 4 := by rw [hs4]; exact (op0_off (by decide)).trans u3
  rw [← hs4] at c3
  have c4 := Sch.cons c3 4 _ e4 (by decide) r4 rfl
  obtain ⟨s5, hs5⟩ : ∃ s, s = TTask.run (coreTrsm rdv .right .lower .conjTrans .nonUnit 1 1 1 (Buf.til 0, 0, 0) (Buf.til 0, 1, 0)) s4 := ⟨_, rfl⟩
  have a5 : s5 (.til 0, 0, 0) 0 0 = 2 := by rw [hs5, coreTrsm, op1_off (by decide), a4]
  have d5 : s5 (.til 0, 1, 1) 0 0 = -1 := by rw [hs5, coreTrsm, op1_off (by decide), d4]
  have u5 : s5 (.usr 0, 0, 0) 0 0 = 4 := by rw [hs5, coreTrsm, op1_off (by decide), u4]
  rw [← hs5] at c4
  have c5 := Sch.cons c4 5 _ e5 (by decide) r5 rfl
  obtain ⟨s6, hs6⟩ : ∃ s, s = TTask.run (coreRk true reP .lower .noTrans 1 1 (-1) (Buf.til 0, 1, 0) 1 (Buf.til 0, 1, 1)) s5 := ⟨_, rfl⟩
  have a6 : s6 (.til 0, 0, 0) 0 0 = 2 := by rw [hs6, coreRk, op1_off (by decide), a5]
  have u6 : s6 (.usr 0, 0, 0) 0 0 = 4 := by rw [hs6, coreRk, op1_off (by decide), u5]
  have d6 : s6 (.til 0, 1, 1) 0 0 < 0 := by
    rw [hs6, coreRk, op1_at (by simp [tri, inTri])]
    simp [dre, reP, d5, opE, cj]
    nlinarith [mul_self_nonneg (s5 (.til 0, 1, 0) 0 0)]
  rw [← hs6] at c5
  have code6 : ∀ s : Store (Buf × Nat × Nat) ℝ, s (.til 0, 1, 1) 0 0 < 0 →
      (corePotrf pk info .lower 1 (Buf.til 0, 1, 1) 1).code s = 2 := by
    intro s h
    simp [corePotrf, potrfneg hpk h]
  have c7 := Sch.cons c5 7 _ e7 (by decide) r7 rfl
  obtain ⟨s7, hs7⟩ : ∃ s, s = TTask.run (lacpyRect 0 1 0 1 (Buf.til 0, 0, 0) (Buf.usr 0, 0, 0)) s6 := ⟨_, rfl⟩
  have u7 : s7 (.usr 0, 0, 0) 0 0 = 2 := by rw [hs7, lacpyRect, op1_at (by simp [rect]), a6]
  have d7 : s7 (.til 0, 1, 1) 0 0 < 0 := by rw [hs7, lacpyRect, op1_off (by decide)]; exact d6
  rw [← hs7] at c7
  rw [hs0] at c5 c7
  have hv : evalid EO (.usr 0, 0, 0) 0 0 := ⟨⟨by decide, by decide⟩, trivial⟩
  obtain ⟨mem1, h1, h1'⟩ := c5.fails hwf hL hN hco poD e6 (by decide) r6 (by rw [code6 _ d6]; decide)
  obtain ⟨mem2, h2, h2'⟩ := c7.fails hwf hL hN hco poD e6 (by decide) r6' (by rw [code6 _ d7]; decide)
  rw [code6 _ d6] at h1
  rw [code6 _ d7] at h2
  exact ⟨mem1, mem2, h1, h2, (h1' _ 0 0 hv).trans ((op0_off (by decide)).trans u6),
    (h2' _ 0 0 hv).trans ((op0_off (by decide)).trans u7)⟩
end

/-- Kernels meeting the hypothesis exist, so `C86_potrf` applies to the two executions. -/
example : ∃ pk info mem', IsPotrf (𝕜 := ℝ) pk info ∧
    GExec (drvEnvK 1 (potDims 2) (ld1 2) (fun _ => some Uplo.lower)) (zpotrf 1 pk info rdv .lower 2) poD mem' 2 := by
  classical
  obtain ⟨pk, info, hpk⟩ := exists_isPotrf (𝕜 := ℝ)
  obtain ⟨mem1, -, h, -⟩ := C86_schedule_refuted hpk
  exact ⟨pk, info, mem1, hpk, h⟩

end Verif.Props

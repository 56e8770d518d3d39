/-
Limits of the properties of the band LU factorization (C64, C65): calls on which the full claims fail.
-/
import Verif.Props.Gb
import Verif.Props.LuRace
import Verif.Jump
import Verif.ArgCheck

set_option linter.unusedSectionVars false

namespace Verif.Props

open Verif.ArgCheck Verif.Layout Verif.Sched Verif.Tile Verif.LU Verif.Panel Finset

universe v w

variable {α : Type v} [Field α] [StarRing α] [DecidableEq α] {γ : Type w} [LinearOrder γ]
  {nb n kl ku ldab nrhs ldb ib mpt : Nat} {E : IntCode α} {mag : α → γ} {dv : α → α → α} {big : α → Bool}

/-- **C64, refutation: leading dimension.** `plasma_zgbsv` accepts `ldab = 1 + kl + ku`.  Then different elements
of a diagonal tile that the conversion copies have the same place in the array: for `n = nb = 2`, `kl = ku = 0`
the task that copies the tile back writes its elements `(0,0)` and `(0,1)` to the same address. -/
theorem C64_ldab_alias :
    zgbsvArgs 2 0 0 1 (1 + 0 + 0) 2 = 0 ∧
    (∃ t ∈ pzdesc2pb (α := α) none (gvPar 2 2 0 0 1 1 2).tA (gvPar 2 2 0 0 1 1 2).uA,
      t.wr ((gvPar 2 2 0 0 1 1 2).uA.at' 0 0) 0 0 ∧ t.wr ((gvPar 2 2 0 0 1 1 2).uA.at' 0 0) 0 1) ∧
    bandAddr (0 + 0) 1 2 0 0 0 0 = bandAddr (0 + 0) 1 2 0 0 0 1 := by
  refine ⟨by decide, ⟨coreT2l none 0 0 2 2 2 0 0 ((gvPar 2 2 0 0 1 1 2).tA.at' 0 0) ((gvPar 2 2 0 0 1 1 2).uA.at' 0 0),
    ?_, ⟨rfl, ?_⟩, ⟨rfl, ?_⟩⟩, by decide⟩
  · unfold pzdesc2pb
    exact List.mem_flatMap.mpr ⟨0, by decide, List.mem_map.mpr ⟨0, by decide, rfl⟩⟩
  · decide
  · decide

/-- No chain of dependences leads to a task that depends on none of the tasks between. -/
theorem no_path_to {X Y Z : List (TTask (Buf × Nat × Nat) α)} {t t' : TTask (Buf × Nat × Nat) α}
    (h : ∀ u ∈ t :: Y, ¬ TDepOn u t') :
    ¬ Relation.TransGen (TEdge (X ++ t :: (Y ++ t' :: Z))) X.length (X.length + 1 + Y.length) := by
  intro hp
  have mono : ∀ a b, Relation.TransGen (TEdge (X ++ t :: (Y ++ t' :: Z))) a b → a < b := by
    intro a b hab
    induction hab with
    | single h => exact h.1
    | tail _ h ih => exact lt_trans ih h.1
  obtain ⟨c, h2, h1⟩ := Relation.TransGen.tail'_iff.mp hp
  have hle : X.length ≤ c := by
    rcases Relation.reflTransGen_iff_eq_or_transGen.mp h2 with h2 | h2
    · rw [h2]
    · exact (mono _ _ h2).le
  obtain ⟨hlt, x, y, hx, hy, hd⟩ := h1
  have ey : y = t' := by
    rw [List.getElem?_append_right (by omega), show X.length + 1 + Y.length - X.length = Y.length + 1 by omega,
      List.getElem?_cons_succ, List.getElem?_append_right (le_refl _), Nat.sub_self] at hy
    exact (Option.some.inj hy).symm
  subst ey
  refine h x ?_ hd
  rw [List.getElem?_append_right hle] at hx
  obtain ⟨d, rfl⟩ := Nat.exists_eq_add_of_le hle
  rw [Nat.add_sub_cancel_left] at hx
  rcases d with _ | d
  · simp at hx; rw [hx]; exact List.mem_cons_self
  · rw [List.getElem?_cons_succ, List.getElem?_append_left (by omega)] at hx
    exact List.mem_cons_of_mem _ (List.mem_of_getElem? hx)

/-- **C64, refutation: array sections.** If list items of `depend` clauses are matched by the storage they name, then
for `kl ≥ 1` and an order larger than the number of rows of the band storage, the sections of the last panels are
empty or have negative length, and a panel is not ordered after the update that writes the same tile. -/
theorem C64_sections_race (hnb : 0 < nb) (hib : 0 < ib) (hmpt : 0 < mpt) (hkl : 1 ≤ kl)
    (hn : nb * (1 + (ku + kl + nb - 1) / nb + (kl + nb - 1) / nb) < n)
    (hl : (kl + nb) + max (ku + kl) (nb - 1) + 1 ≤ ldab) :
    Race (tasks (zgbtrf true E mag dv big nb ib mpt n kl ku ldab)) := by
  have hp : (gvPar nb n kl ku ldab 0 n).OK := gb_ok hnb hl le_rfl
  have h := gb_OK (ib := ib) (mpt := mpt) hp hib hmpt
  unfold zgbtrf
  simp only
  set p := gvPar nb n kl ku ldab 0 n with hpdef
  set A := p.tA with hA
  set P := p.uP with hP
  obtain ⟨G, hG⟩ : ∃ G, 1 + (ku + kl + nb - 1) / nb + (kl + nb - 1) / nb = G + 1 := ⟨_, by rw [Nat.add_assoc, Nat.add_comm]⟩
  have hgm : A.d.gm = nb * (G + 1) := by
    rw [← hG, Nat.add_assoc, Nat.add_comm]; rfl
  rw [hG] at hn
  have hGt : G + 1 < A.d.mt := by rw [h.lt, Nat.mul_comm]; exact hn
  have hq : 1 ≤ (kl + nb - 1) / nb := (Nat.le_div_iff_mul_le hnb).mpr (by omega)
  have hq2 : 1 ≤ (ku + kl + nb - 1) / nb := (Nat.le_div_iff_mul_le hnb).mpr (by omega)
  have hklt : 2 ≤ A.d.klt := by rw [h.klt]; omega
  have hkut : 2 ≤ A.d.kut := by rw [h.kut]; omega
  -- the program around the two tasks
  obtain ⟨d, hd⟩ : ∃ d, min A.d.mt A.d.nt = G + (d + 2) := by
    rw [h.nt, Nat.min_self]; exact ⟨A.d.mt - G - 2, by omega⟩
  have hrange : List.range (min A.d.mt A.d.nt) = List.range G ++ G :: (G + 1) :: (List.range d).map (· + (G + 2)) := by
    rw [hd, List.range_add, List.range_succ_eq_map, List.range_succ_eq_map]
    simp only [List.map_cons, List.map_map, Nat.add_zero]
    congr 3
    apply List.map_congr_left
    intro a _
    simp only [Function.comp]
    omega
  have hspan : span (G + 1) (min A.d.nt (G + A.d.kut)) = (G + 1) :: span (G + 2) (min A.d.nt (G + A.d.kut)) :=
    span_cons (by rw [h.nt]; omega)
  set pan := gbPanelT (gbPanelDeps true A P (G + 1)) E mag dv big ib mpt A P (G + 1) with hpan
  set upd := gbUpdT true E dv A P G (G + 1) with hupd
  set Y := (span (G + 2) (min A.d.nt (G + A.d.kut))).map (fun n => gbUpdT true E dv A P G n) ++ [gbAdjT E A P G] with hY
  obtain ⟨X, Z, hXZ⟩ : ∃ X Z, tasks (pzgbtrf true E mag dv big ib mpt A P) = X ++ upd :: (Y ++ pan :: Z) := by
    refine ⟨tasks ((List.range G).flatMap (gbStep true E mag dv big ib mpt A P)) ++
      [gbPanelT (gbPanelDeps true A P G) E mag dv big ib mpt A P G],
      ((span (G + 1 + 1) (min A.d.nt (G + 1 + A.d.kut))).map (fun n => gbUpdT true E dv A P (G + 1) n) ++
        [gbAdjT E A P (G + 1)]) ++ tasks (((List.range d).map (· + (G + 2))).flatMap
        (gbStep true E mag dv big ib mpt A P)), ?_⟩
    unfold pzgbtrf
    rw [hrange, List.flatMap_append, List.flatMap_cons, List.flatMap_cons, tasks_append, tasks_append, tasks_append]
    have hst : ∀ k, tasks (gbStep true E mag dv big ib mpt A P k) =
        gbPanelT (gbPanelDeps true A P k) E mag dv big ib mpt A P k ::
        ((span (k + 1) (min A.d.nt (k + A.d.kut))).map (fun n => gbUpdT true E dv A P k n) ++ [gbAdjT E A P k]) := by
      intro k; unfold gbStep; rw [tasks_append, tasks_okT]; rfl
    rw [hst G, hst (G + 1), hspan]
    simp only [hY, List.map_cons, List.append_assoc, List.cons_append, List.nil_append]
    rfl
  have hsec : ∀ k, G + 1 ≤ k → gbSec true A k = false := by
    intro k hk
    have : nb * (G + 1) ≤ k * A.d.mb := by
      rw [h.a.mb, Nat.mul_comm]; exact Nat.mul_le_mul_right _ hk
    simp [gbSec, hgm, this]
  have heq : tasks (okT (pzpb2desc none p.uA A) ++ phG 1 (pzgbtrf true E mag dv big ib mpt A P) ++
      okT ((pzdesc2pb none A p.uA).map (phT 2))) =
      (pzpb2desc none p.uA A ++ X.map (phT 1)) ++ phT 1 upd :: (Y.map (phT 1) ++ phT 1 pan ::
        (Z.map (phT 1) ++ (pzdesc2pb none A p.uA).map (phT 2))) := by
    rw [tasks_append, tasks_append, tasks_okT, tasks_okT, tasks_phG, hXZ]
    simp only [List.map_append, List.map_cons, List.append_assoc, List.cons_append]
  rw [heq]
  refine ⟨_, _, phT 1 upd, phT 1 pan, ?_, ?_, ?_, ?_, no_path_to ?_⟩
  · omega
  · rw [List.getElem?_append_right (le_refl _), Nat.sub_self]; rfl
  · rw [List.getElem?_append_right (by omega), Nat.add_assoc, Nat.add_sub_cancel_left, Nat.add_comm 1,
      List.getElem?_cons_succ, List.getElem?_append_right (le_refl _), Nat.sub_self]; rfl
  · have hb1 : 0 < min nb (n - (G + 1) * nb) := by
      have := h.lt.mp hGt; omega
    refine ⟨A.at' (G + 1) (G + 1), 0, 0, ?_, Or.inr ?_⟩
    · refine ⟨coreGemm .noTrans .noTrans (A.d.mview (G + 1)) (A.d.nview (G + 1)) A.d.nb (-1) (A.at' (G + 1) G)
        (A.at' G (G + 1)) 1 (A.at' (G + 1) (G + 1)), ?_, rfl, ?_, ?_⟩
      · unfold gbUpdBody
        refine List.mem_append_right _ (List.mem_flatMap.mpr ⟨G + 1, mem_span.mpr ⟨?_, ?_⟩, by simp⟩)
        · omega
        · omega
      · rw [h.mv hGt]; exact hb1
      · rw [h.nv hGt]; exact hb1
    · refine Or.inl ?_
      have e : (0 : Nat) = ((G + 1) * nb) % A.d.mb := by rw [h.a.mb, Nat.mul_mod_left]
      have e' : (0 : Nat) = ((G + 1) * nb) % A.d.nb := by rw [h.a.nb, Nat.mul_mod_left]
      have e2 : G + 1 = ((G + 1) * nb) / A.d.mb := by rw [h.a.mb, Nat.mul_div_cancel _ hnb]
      have e2' : G + 1 = ((G + 1) * nb) / A.d.nb := by rw [h.a.nb, Nat.mul_div_cancel _ hnb]
      have := (A.reg_at (by rw [h.a.mb]; exact hnb) (by rw [h.a.nb]; exact hnb)
        (fun r c => (G + 1) * A.d.mb ≤ r ∧ r < (G + 1) * A.d.mb + gbMak A (G + 1) ∧
          (G + 1) * A.d.nb ≤ c ∧ c < (G + 1) * A.d.nb + A.d.nview (G + 1)) ((G + 1) * nb) ((G + 1) * nb)).mpr (by
          have hm := h.mak hGt
          have := h.lt.mp hGt
          rw [h.a.mb, h.a.nb, h.nv hGt]
          omega)
      rw [← e, ← e', ← e2, ← e2'] at this
      exact this
  · have hPk : ∀ k, k ≠ G + 1 → P.at' k 0 ≠ P.at' (G + 1) 0 := fun k hk e => hk (TMat.at'_inj.mp e).1
    have hAP : ∀ m n m' n', A.at' m n ≠ P.at' m' n' := fun m n m' n' e => by
      have := congrArg Prod.fst e; simp [hA, hP, BPar.tA, BPar.uP, bandT, TMat.full, TMat.at'] at this
    have hdp : (phT 1 pan).deps = [(P.at' (G + 1) 0, true)] := by
      show gbPanelDeps true A P (G + 1) = _
      unfold gbPanelDeps; rw [hsec _ le_rfl]; rfl
    have key : ∀ u : TTask (Buf × Nat × Nat) α, u.phase = 1 → (∀ e ∈ u.deps, e.1 ≠ P.at' (G + 1) 0) → ¬ TDepOn u (phT 1 pan) := by
      intro u hu hud hdep
      rcases hdep with hdep | ⟨e, he, e', he', ee, -⟩
      · rw [hu] at hdep; exact absurd hdep (lt_irrefl _)
      · rw [hdp, List.mem_singleton] at he'
        subst he'
        exact hud e he ee
    have hupdD : ∀ j, ∀ e ∈ gbUpdDeps true A P G j, e.1 ≠ P.at' (G + 1) 0 := by
      intro j e he
      unfold gbUpdDeps gsec at he
      simp only [List.mem_append, List.mem_cons, List.not_mem_nil, or_false] at he
      rcases he with (he | rfl | rfl) | he
      · split at he
        · rw [List.mem_singleton] at he; subst he; exact hAP _ _ _ _
        · simp at he
      · exact hPk G (by omega)
      · exact hAP _ _ _ _
      · split at he
        · rw [List.mem_singleton] at he; subst he; exact hAP _ _ _ _
        · simp at he
    intro u hu
    rcases List.mem_cons.mp hu with rfl | hu
    · exact key _ rfl (hupdD _)
    · obtain ⟨y, hy, rfl⟩ := List.mem_map.mp hu
      refine key _ rfl ?_
      rw [hY] at hy
      rcases List.mem_append.mp hy with hy | hy
      · obtain ⟨j, -, rfl⟩ := List.mem_map.mp hy
        exact hupdD j
      · rw [List.mem_singleton] at hy
        subst hy
        intro e he
        have : e = (P.at' G 0, false) := by simpa [gbAdjT, gop, phT] using he
        rw [this]
        exact hPk G (by omega)

/-- The tasks of the factorization, with either way of matching, are local and stay inside the arrays. -/
theorem pzgbtrf_li {env : Buf → MatEnv} {A P : TMat Buf} (hf : GbFit env nb n kl ku A P ib mpt) (rg : Bool) :
    ∀ y ∈ tasks (pzgbtrf rg E mag dv big ib mpt A P), y.Local ∧ y.Inside (evalid env) := by
  intro y hy
  have h := hf.ok
  rw [pzgbtrf_labs] at hy
  obtain ⟨⟨k, j⟩, hlb, rfl⟩ := List.mem_map.mp hy
  rw [mem_gbLabs] at hlb
  simp only at hlb
  have hk : k < A.d.mt := by omega
  unfold gbLab
  simp only
  have hnt := h.nt
  by_cases e1 : j = k
  · rw [if_pos e1]
    exact ⟨gbPanelT_local h hk, gbPanelT_inside hf hk⟩
  · rw [if_neg e1]
    by_cases e2 : j < A.d.nt
    · rw [if_pos e2]
      exact ⟨seqT_local (gbUpdBody_local h hk), seqT_inside (gbUpdBody_inside hf (by omega) (by omega) (by omega))⟩
    · rw [if_neg e2]
      exact ⟨gbAdjT_local h, gbAdjT_inside hf hk⟩

/-- Executions of `plasma_zgbtrf` exist. -/
theorem zgbtrf_exists (hnb : 0 < nb) (hib : 0 < ib) (hmpt : 0 < mpt) (hl : (kl + nb) + max (ku + kl) (nb - 1) + 1 ≤ ldab)
    (rg : Bool) (mem : Buf × Nat → α) :
    ∃ mem' st, GExec (gvPar nb n kl ku ldab 0 n).env (zgbtrf rg E mag dv big nb ib mpt n kl ku ldab) mem mem' st := by
  have hp : (gvPar nb n kl ku ldab 0 n).OK := gb_ok hnb hl le_rfl
  have hli := pzgbtrf_li (E := E) (mag := mag) (dv := dv) (big := big) (gb_fit (ib := ib) (mpt := mpt) hp hib hmpt) rg
  have hgin := BPar.in_good (α := α) hp
  have hgout := BPar.out_good (α := α) hp
  have hall : ∀ x ∈ tasks (zgbtrf rg E mag dv big nb ib mpt n kl ku ldab),
      x.Local ∧ x.Inside (evalid (gvPar nb n kl ku ldab 0 n).env) := by
    unfold zgbtrf
    simp only
    rw [tasks_append, tasks_append, tasks_okT, tasks_okT, tasks_phG]
    intro x hx
    rcases List.mem_append.mp hx with hx | hx
    · rcases List.mem_append.mp hx with hx | hx
      · exact ⟨hgin.loc x hx, hgin.ins x hx⟩
      · obtain ⟨y, hy, rfl⟩ := List.mem_map.mp hx
        exact ⟨phT_local (hli y hy).1, phT_inside (hli y hy).2⟩
    · obtain ⟨y, hy, rfl⟩ := List.mem_map.mp hx
      exact ⟨phT_local (hgout.loc y hy), phT_inside (hgout.ins y hy)⟩
  exact GExec.existsI hp.wf (fun x hx => (hall x hx).1) (fun x hx => (hall x hx).2) mem

/-- Executions of `plasma_zgbsv` exist. -/
theorem zgbsv_exists (hnb : 0 < nb) (hib : 0 < ib) (hmpt : 0 < mpt) (hl : (kl + nb) + max (ku + kl) (nb - 1) + 1 ≤ ldab)
    (hl' : n ≤ ldb) (rg : Bool) (mem : Buf × Nat → α) :
    ∃ mem' st, GExec (gvPar nb n kl ku ldab nrhs ldb).env (zgbsv rg E mag dv big nb ib mpt n kl ku nrhs ldab ldb) mem mem' st := by
  have hp : (gvPar nb n kl ku ldab nrhs ldb).OK := gb_ok hnb hl hl'
  have hli := pzgbtrf_li (E := E) (mag := mag) (dv := dv) (big := big) (gb_fit (ib := ib) (mpt := mpt) hp hib hmpt) rg
  have hgin := BPar.in_good (α := α) hp
  have hgout := BPar.out_good (α := α) hp
  have hBin := BPar.geIn_good (α := α) hp
  have hBout := BPar.geOut_good (α := α) hp
  have hloc := gbSolve_loc (E := E) (dv := dv) (t := .noTrans) (gb_tb (ib := ib) (mpt := mpt) hp hib hmpt) (BPar.fits_tA hp)
    (BPar.fits_tB hp) (gb_fits_uP hnb) (φ := 1)
  have hall : ∀ x ∈ tasks (zgbsv rg E mag dv big nb ib mpt n kl ku nrhs ldab ldb),
      x.Local ∧ x.Inside (evalid (gvPar nb n kl ku ldab nrhs ldb).env) := by
    unfold zgbsv ompZgbsv
    simp only
    split
    · intro x hx; simp [tasks] at hx
    split
    all_goals
      rw [tasks_append, tasks_append, tasks_okT, tasks_okT]
      intro x hx
      simp only [List.mem_append, List.map_append] at hx
      rcases hx with ((hx | hx) | hx) | (hx | hx)
    all_goals first
      | exact ⟨hgin.loc x hx, hgin.ins x hx⟩
      | exact ⟨hBin.loc x hx, hBin.ins x hx⟩
      | (simp [tasks] at hx; done)
      | (rw [tasks_append, tasks_okT, tasks_phG] at hx
         rcases List.mem_append.mp hx with hx | hx
         · obtain ⟨y, hy, rfl⟩ := List.mem_map.mp hx
           exact ⟨phT_local (hli y hy).1, phT_inside (hli y hy).2⟩
         · exact hloc x hx)
      | (obtain ⟨y, hy, rfl⟩ := List.mem_map.mp hx
         exact ⟨phT_local (hgout.loc y hy), phT_inside (hgout.ins y hy)⟩)
      | (obtain ⟨y, hy, rfl⟩ := List.mem_map.mp hx
         exact ⟨phT_local (hBout.loc y hy), phT_inside (hBout.ins y hy)⟩)
  exact GExec.existsI hp.wf (fun x hx => (hall x hx).1) (fun x hx => (hall x hx).2) mem

/-- **C65, refutation: diagonal matrices.** With `kl = ku = 0` the tasks factoring different diagonal tiles are
unordered.  For `nb = 1`: if entry `i` is zero, some execution of `plasma_zgbtrf` returns `i + 1`, although an entry
before may be zero too. -/
theorem C65_diagonal_refuted (hdv : IsDiv dv) (hmag : IsMag mag) (hib : 0 < ib) (hmpt : 0 < mpt) (rg : Bool)
    (hl : 2 ≤ ldab) (mem : Buf × Nat → α) (i : Nat) (hi : i < n) (h0 : mem (.usr 0, i * ldab) = 0) :
    ∃ mem', GExec (gvPar 1 n 0 0 ldab 0 n).env (zgbtrf rg E mag dv big 1 ib mpt n 0 0 ldab) mem mem' (i + 1) := by
  have hp : (gvPar 1 n 0 0 ldab 0 n).OK := gb_ok (by decide) (by simpa using hl) le_rfl
  have hin := fun {r c : Nat} => gb_in (α := α) hp (IB := []) Writes.nil mem (r := r) (c := c)
  have h := gb_OK (ib := ib) (mpt := mpt) hp hib hmpt
  have hf := gb_fit (ib := ib) (mpt := mpt) hp hib hmpt
  unfold zgbtrf
  simp only
  set p := gvPar 1 n 0 0 ldab 0 n with hpdef
  set A := p.tA with hA
  set P := p.uP with hP
  rw [List.append_nil] at hin
  set I := pzpb2desc (α := α) none p.uA A with hI
  set s := texec I (view (eloc p.env) mem) with hs
  have hkut : A.d.kut = 1 := by rw [h.kut]
  have hmt : ∀ k, k < A.d.mt ↔ k < n := fun k => by rw [h.lt, Nat.mul_one]
  have hst : ∀ k, gbStep rg E mag dv big ib mpt A P k =
      [{ task := gbPanelT (gbPanelDeps rg A P k) E mag dv big ib mpt A P k
         code := gbCode mag dv big ib mpt A k }] ++ okT [gbAdjT E A P k] := by
    intro k
    unfold gbStep
    have : span (k + 1) (min A.d.nt (k + A.d.kut)) = [] := by
      rw [List.eq_nil_iff_forall_not_mem]
      intro q hq
      rw [mem_span, hkut] at hq
      omega
    rw [this]
    rfl
  have hmem : i ∈ List.range (min A.d.mt A.d.nt) := by
    rw [h.nt, Nat.min_self, List.mem_range, hmt]; exact hi
  obtain ⟨l1, l2, hsplit⟩ := List.append_of_mem hmem
  have hnd : i ∉ l1 := by
    have := List.nodup_range (n := min A.d.mt A.d.nt)
    rw [hsplit] at this
    exact fun h => (List.nodup_append.mp this).2.2 i h i List.mem_cons_self rfl
  have hl1 : ∀ j ∈ l1, j < A.d.mt := by
    intro j hj
    have : j ∈ List.range (min A.d.mt A.d.nt) := by rw [hsplit]; exact List.mem_append_left _ hj
    rw [h.nt, Nat.min_self] at this
    exact List.mem_range.mp this
  set t : GTTask (Buf × Nat × Nat) α :=
    { task := phT 1 (gbPanelT (gbPanelDeps rg A P i) E mag dv big ib mpt A P i)
      code := gbCode mag dv big ib mpt A i } with ht
  set Q := phG 1 (l1.flatMap (gbStep rg E mag dv big ib mpt A P)) with hQ
  set R := phG 1 (okT [gbAdjT E A P i] ++ l2.flatMap (gbStep rg E mag dv big ib mpt A P)) ++
    okT ((pzdesc2pb none A p.uA).map (phT 2)) with hR
  have heq : okT I ++ phG 1 (pzgbtrf rg E mag dv big ib mpt A P) ++ okT ((pzdesc2pb none A p.uA).map (phT 2)) =
      okT I ++ (Q ++ t :: R) := by
    unfold pzgbtrf
    rw [hsplit, List.flatMap_append, List.flatMap_cons, hst i, hQ, hR]
    simp only [phG, List.map_append, List.append_assoc, List.map_cons, List.cons_append, List.nil_append, List.map_nil]
    rfl
  -- the code of the panel
  have himt : i < A.d.mt := (hmt i).mpr hi
  have hcode : t.code s = (i : Int) + 1 := by
    have hel : A.el s i i = 0 := by
      have := hin hi hi
      unfold gbX gbU at this
      rw [if_pos (by simp [bTile]), if_pos (by simp [bTile, inB])] at this
      rw [this, ← h0]
      congr 2
      omega
    have hmak : gbMak A i = 1 := by
      have := h.mak himt
      omega
    have hnv : A.d.nview i = 1 := by rw [h.nv himt]; omega
    obtain ⟨o1, o2⟩ := panel_ok (h.cfg himt) hmag hdv big (toPS A i s) rfl
      (s' := gbOut mag dv big ib mpt A i s) rfl
    have hmn : (gbCfg ib mpt A i).mn = 1 := by
      show min (gbMak A i) (A.d.nview i) = 1; rw [hmak, hnv, Nat.min_self]
    have hM : (gbCfg ib mpt A i).M = 1 := hmak
    have hN : (gbCfg ib mpt A i).N = 1 := hnv
    have hne : infov (gbOut mag dv big ib mpt A i s) ≠ 0 := by
      intro hz
      obtain ⟨q1, q2, q3⟩ := o1 hz
      have e1 := q2 0 0 (by rw [hM]; exact Nat.one_pos) (by rw [hN]; exact Nat.one_pos)
      have hpl : perm (fun i_1 => pivv (gbOut mag dv big ib mpt A i s) i_1 - 1) 0 (gbCfg ib mpt A i).mn 0 < 1 := by
        rw [hmn]
        exact perm_lt (le_refl 1) (fun j hj => by have := (q1 j (by rw [hmn]; exact hj)).2.2; omega) Nat.one_pos
      rw [Nat.lt_one_iff.mp hpl, num_toPS' h, Nat.mul_one, Nat.add_zero, hel] at e1
      refine q3 0 (by rw [hmn]; exact Nat.one_pos) ?_
      have : luE (num (gbCfg ib mpt A i) (gbOut mag dv big ib mpt A i s)) 0 0 =
          num (gbCfg ib mpt A i) (gbOut mag dv big ib mpt A i s) 0 0 := by simp [luE]
      rw [← this, ← e1]
    have hle := (o2 hne).1
    rw [hmn] at hle
    show gbCode mag dv big ib mpt A i s = _
    unfold gbCode
    rw [if_neg hne, h.a.mb, show infov (gbOut mag dv big ib mpt A i s) = 1 by omega]
    push_cast
    ring
  have hgin : Good (evalid p.env) I := BPar.in_good hp
  have hgout : Good (evalid p.env) (pzdesc2pb (α := α) none A p.uA) := BPar.out_good hp
  have hall : ∀ x ∈ tasks (okT I ++ (Q ++ t :: R)), x.Local ∧ x.Inside (evalid p.env) := by
    rw [← heq, tasks_append, tasks_append, tasks_okT, tasks_okT, tasks_phG]
    intro x hx
    rcases List.mem_append.mp hx with hx | hx
    · rcases List.mem_append.mp hx with hx | hx
      · exact ⟨hgin.loc x hx, hgin.ins x hx⟩
      · obtain ⟨y, hy, rfl⟩ := List.mem_map.mp hx
        exact ⟨phT_local (pzgbtrf_li hf rg y hy).1, phT_inside (pzgbtrf_li hf rg y hy).2⟩
    · obtain ⟨y, hy, rfl⟩ := List.mem_map.mp hx
      exact ⟨phT_local (hgout.loc y hy), phT_inside (hgout.ins y hy)⟩
  rw [heq]
  have := GExec.jump (env := p.env) (I := okT I) (Q := Q) (R := R) (t := t) hp.wf (by rw [tasks_okT]; exact hgin)
    (CodeOK.ok _) (safe_ok _) (fun x hx => (hall x hx).1) (fun x hx => (hall x hx).2) ?_ ?_ mem
    (by rw [tasks_okT, ← hs, hcode]; omega)
  · rwa [tasks_okT, ← hs, hcode] at this
  · constructor
    · intro x hx s1 s2 hss; rw [List.mem_singleton] at hx; subst hx; exact gbCode_congr (E := E) (d := []) h himt hss
    · intro x hx hg; rw [List.mem_singleton] at hx; subst hx; cases hg
  · have hvA : ∀ k, k < A.d.mt → evalid p.env (A.at' k k) 0 0 := by
      intro k hk
      have hk0 := (hmt k).mp hk
      refine (BPar.fits_tA hp).validOn (by show bTile none 1 0 0 k k; simp [bTile]) ?_ ?_
      · show 0 < tdim n 1 k; unfold tdim; omega
      · show 0 < tdim n 1 k; unfold tdim; omega
    have hvP : ∀ k, k < A.d.mt → evalid p.env (P.at' k 0) 0 0 := by
      intro k hk
      have hk0 := (hmt k).mp hk
      refine (gb_fits_uP (by decide)).valid ?_ ?_
      · show 0 < tdim n 1 k; unfold tdim; omega
      · show 0 < tdim 1 1 0; unfold tdim; omega
    have hkey : ∀ x y : Buf × Nat × Nat, evalid p.env x 0 0 → evalid p.env y 0 0 → x ≠ y → ekey p.env x ≠ ekey p.env y :=
      fun x y hx hy hne he => hne (env_inj hp.wf _ _ _ _ _ _ hx hy he).1
    have hAP : ∀ m n m' n', A.at' m n ≠ P.at' m' n' := fun m n m' n' e => by
      have := congrArg Prod.fst e; simp [hA, hP, BPar.tA, BPar.uP, bandT, TMat.full, TMat.at'] at this
    have hpd : ∀ k, ∀ e ∈ gbPanelDeps rg A P k, e.1 = A.at' k k ∨ e.1 = P.at' k 0 := by
      intro k e he
      unfold gbPanelDeps gsec at he
      rcases List.mem_append.mp he with he | he
      · split at he
        · rw [List.mem_singleton] at he; subst he; exact Or.inl rfl
        · simp at he
      · rw [List.mem_singleton] at he; subst he; exact Or.inr rfl
    have hne : ∀ j, j ∈ l1 → ∀ x y, (x = A.at' j j ∨ x = P.at' j 0) → (y = A.at' i i ∨ y = P.at' i 0) →
        ekey p.env x ≠ ekey p.env y := by
      intro j hj x y hx hy
      have hji : j ≠ i := fun e => hnd (e ▸ hj)
      rcases hx with rfl | rfl <;> rcases hy with rfl | rfl
      · exact hkey _ _ (hvA j (hl1 j hj)) (hvA i himt) fun e => hji (TMat.at'_inj.mp e).1
      · exact hkey _ _ (hvA j (hl1 j hj)) (hvP i himt) (hAP _ _ _ _)
      · exact hkey _ _ (hvP j (hl1 j hj)) (hvA i himt) (hAP _ _ _ _).symm
      · exact hkey _ _ (hvP j (hl1 j hj)) (hvP i himt) fun e => hji (TMat.at'_inj.mp e).1
    intro x hx
    obtain ⟨y, hy, rfl⟩ := List.mem_map.mp hx
    obtain ⟨j, hj, hy⟩ := List.mem_flatMap.mp hy
    refine ⟨by show ¬ 1 < 1; omega, ?_⟩
    intro e he e' he'
    refine hne j hj _ _ ?_ (hpd i e' he')
    rw [hst j] at hy
    simp only [List.cons_append, List.nil_append, List.mem_cons, okT, List.map_cons, List.map_nil, List.not_mem_nil, or_false] at hy
    rcases hy with rfl | rfl
    · exact hpd j e he
    · have : e = (P.at' j 0, false) := by simpa [gbAdjT, gop, phT] using he
      rw [this]; exact Or.inr rfl

/-! ### Examples -/

/-- The band matrix `[0 1 0; 1 0 0; 0 2 1]` with `kl = ku = 1`, `nb = 1`, `ldab = 5`; right-hand side `(3, 5, 7)`. -/
def gbEx : Buf × Nat → ℚ
  | (.usr 0, x) => if x = 3 ∨ x = 6 ∨ x = 12 then 1 else if x = 8 then 2 else 0
  | (.usr 1, x) => if x = 0 then 3 else if x = 1 then 5 else 7
  | _ => 0

theorem gbEx_pad : GbPad 1 1 1 5 3 gbEx := by
  intro r c hr hc h1 h2 h3
  interval_cases r <;> interval_cases c <;> simp [gbEx] at * <;> omega

theorem gbEx_indep : ColsIndep 3 3 (gbA 1 1 5 gbEx) := by
  intro x h c hc
  have h0 := h 0 (by decide)
  have h1 := h 1 (by decide)
  have h2 := h 2 (by decide)
  simp [Finset.sum_range_succ, gbA, gbEx] at h0 h1 h2
  interval_cases c <;> linarith

theorem qmag_ok : IsMag (fun x : ℚ => |x|) := ⟨fun x hx => by simpa using hx⟩

/-- `C64_gbsv_partial`: an execution returning 0 exists, with solution `(5, 3, 1)`; rows 1 and 2 are interchanged. -/
example : ∃ mem', GExec (gvPar 1 3 1 1 5 1 3).env
    (zgbsv true ratCode (fun x : ℚ => |x|) qdv (fun _ => true) 1 1 1 3 1 1 1 5 3) gbEx mem' 0 ∧
    mem' (.usr 1, 0) = 5 ∧ mem' (.usr 1, 1) = 3 ∧ mem' (.usr 1, 2) = 1 := by
  obtain ⟨mem', st, hx⟩ := zgbsv_exists (E := ratCode) (mag := fun x : ℚ => |x|) (dv := qdv) (big := fun _ => true)
    (nb := 1) (ib := 1) (mpt := 1) (n := 3) (kl := 1) (ku := 1) (nrhs := 1) (ldab := 5) (ldb := 3)
    (by decide) (by decide) (by decide) (by decide) (by decide) true gbEx
  obtain ⟨h1, h2, -⟩ := C64_gbsv_partial qdv_isDiv qmag_ok (by decide) (by decide) (by decide) (fun _ => by decide)
    (by decide) (by decide) (by decide) gbEx mem' st gbEx_pad hx
  have h0 := h1.mpr gbEx_indep
  obtain ⟨h3, -⟩ := h2 h0
  subst h0
  refine ⟨mem', hx, ?_⟩
  have a0 := h3 0 0 (by decide) (by decide)
  have a1 := h3 1 0 (by decide) (by decide)
  have a2 := h3 2 0 (by decide) (by decide)
  simp [Finset.sum_range_succ, gbA, gbEx] at a0 a1 a2
  refine ⟨by linarith, by linarith, by linarith⟩

/-- `C65_gbtrf_partial` and `C66_gbtrs_partial`: executions of the factorization returning 0 and of the solve exist. -/
example : ∃ mem1 mem3, GExec (gvPar 1 3 1 1 5 0 3).env
    (zgbtrf false ratCode (fun x : ℚ => |x|) qdv (fun _ => true) 1 1 1 3 1 1 5) gbEx mem1 0 ∧
    Exec (gvPar 1 3 1 1 5 1 3).env (zgbtrs ratCode qdv 1 .trans 3 1 1 1 5 3) mem1 mem3 ∧
    mem3 (.usr 1, 0) = 5 - 14 ∧ mem3 (.usr 1, 1) = 3 ∧ mem3 (.usr 1, 2) = 7 := by
  obtain ⟨mem1, st, hx⟩ := zgbtrf_exists (E := ratCode) (mag := fun x : ℚ => |x|) (dv := qdv) (big := fun _ => true)
    (nb := 1) (ib := 1) (mpt := 1) (n := 3) (kl := 1) (ku := 1) (ldab := 5)
    (by decide) (by decide) (by decide) (by decide) false gbEx
  obtain ⟨h1, -, -, hfr⟩ := C65_gbtrf_partial qdv_isDiv qmag_ok (by decide) (by decide) (by decide) (fun h => by cases h)
    (by decide) gbEx mem1 st gbEx_pad hx
  have h0 := h1.mpr gbEx_indep
  subst h0
  have hp : (gvPar 1 3 1 1 5 1 3).OK := gb_ok (by decide) (by decide) (by decide)
  have hg := zgbtrs_good (α := ℚ) (E := ratCode) (dv := qdv) hp .trans
  obtain ⟨mem3, hy⟩ := Exec.exists hp.wf hg.loc hg.ins mem1
  obtain ⟨h3, -⟩ := C66_gbtrs_partial qdv_isDiv qmag_ok (by decide) (by decide) (by decide) (fun h => by cases h)
    (by decide) (by decide) .trans gbEx mem1 mem1 mem3 gbEx_pad hx (fun _ _ _ => rfl) hy
  refine ⟨mem1, mem3, hx, hy, ?_⟩
  have b : ∀ x, mem1 (.usr 1, x) = gbEx (.usr 1, x) := fun x => hfr 1 x (fun h => by cases h) (fun h => by cases h)
  have a0 := h3 0 0 (by decide) (by decide)
  have a1 := h3 1 0 (by decide) (by decide)
  have a2 := h3 2 0 (by decide) (by decide)
  simp [Finset.sum_range_succ, gbA, opE, b] at a0 a1 a2
  simp [gbEx] at a0 a1 a2
  refine ⟨by linarith, by linarith, by linarith⟩

/-- A singular matrix: the second column of `[0 0; 0 1]`, `kl = 1`, `ku = 0`, is independent of the first, which is
zero; the value is 1. -/
example : ∃ mem', GExec (gvPar 1 2 1 0 4 0 2).env
    (zgbtrf false ratCode (fun x : ℚ => |x|) qdv (fun _ => true) 1 1 1 2 1 0 4)
    (fun x => if x = (.usr 0, 5) then 1 else 0) mem' 1 := by
  obtain ⟨mem', st, hx⟩ := zgbtrf_exists (E := ratCode) (mag := fun x : ℚ => |x|) (dv := qdv) (big := fun _ => true)
    (nb := 1) (ib := 1) (mpt := 1) (n := 2) (kl := 1) (ku := 0) (ldab := 4)
    (by decide) (by decide) (by decide) (by decide) false (fun x => if x = (.usr 0, 5) then 1 else 0)
  obtain ⟨h1, -, h2, -⟩ := C65_gbtrf_partial qdv_isDiv qmag_ok (by decide) (by decide) (by decide) (fun h => by cases h)
    (by decide) _ mem' st (by
      intro r c hr hc h1 h2 h3
      interval_cases r <;> interval_cases c <;> simp at * <;> omega) hx
  have hz : ∀ r, gbA 1 0 4 (fun x => if x = (Buf.usr 0, 5) then (1 : ℚ) else 0) r 0 = 0 := by
    intro r; simp [gbA]; omega
  have hne : st ≠ 0 := fun h0 => by
    have := h1.mp h0 (fun c => if c = 0 then 1 else 0) (fun r hr => by simp [Finset.sum_range_succ, hz]) 0 (by decide)
    simp at this
  obtain ⟨q, hq, hst, hin, -⟩ := h2 hne (by decide)
  have : q = 0 := by
    by_contra h0
    have := hin (fun c => if c = 0 then 1 else 0) (fun r hr => by
      rw [Finset.sum_eq_zero]
      intro c _
      by_cases hc : c = 0
      · subst hc; rw [hz, zero_mul]
      · simp [hc]) 0 (by omega)
    simp at this
  subst this
  rw [hst] at hx
  exact ⟨mem', hx⟩

/-- `C64_padding_refuted`, `C64_sections_race` and `C65_diagonal_refuted` apply: the array of ones, a matrix of order
4 with one subdiagonal, and the zero matrix of order 2, for which both 1 and 2 are possible values. -/
example : (∃ mem' st, GExec (gvPar 2 2 0 0 4 1 2).env
      (zgbsv true ratCode (fun x : ℚ => |x|) qdv (fun _ => true) 2 1 1 2 0 0 1 4 2) (fun _ => 1) mem' st ∧ st ≠ 0) ∧
    Race (tasks (zgbtrf true ratCode (fun x : ℚ => |x|) qdv (fun _ => true) 1 1 1 4 1 0 4)) ∧
    (∀ i : Nat, i < 2 → ∃ mem', GExec (gvPar 1 2 0 0 2 0 2).env
      (zgbtrf true ratCode (fun x : ℚ => |x|) qdv (fun _ => true) 1 1 1 2 0 0 2) (fun _ => 0) mem' (i + 1)) := by
  refine ⟨?_, C64_sections_race (by decide) (by decide) (by decide) (by decide) (by decide) (by decide),
    fun i hi => C65_diagonal_refuted qdv_isDiv qmag_ok (by decide) (by decide) true (by decide) _ i hi rfl⟩
  obtain ⟨mem', st, hx⟩ := zgbsv_exists (E := ratCode) (mag := fun x : ℚ => |x|) (dv := qdv) (big := fun _ => true)
    (nb := 2) (ib := 1) (mpt := 1) (n := 2) (kl := 0) (ku := 0) (nrhs := 1) (ldab := 4) (ldb := 2)
    (by decide) (by decide) (by decide) (by decide) (by decide) true (fun _ => 1)
  exact ⟨mem', st, hx, (C64_padding_refuted qdv_isDiv qmag_ok (by decide) (by decide) _ mem' st (fun _ => rfl) hx).2⟩

end Verif.Props

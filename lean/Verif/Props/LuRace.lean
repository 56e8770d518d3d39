/-
Ordering of the tasks of the LU factorization with respect to the layout conversion when list
items of `depend` clauses are matched by base address (property C23).
-/
import Verif.Props.LuSolve

set_option linter.unusedSectionVars false

namespace Verif.Props

open Verif.Layout Verif.Sched Verif.Tile Verif.LU Verif.Panel Finset

universe v w

section
variable {α : Type v} [Field α] [StarRing α] [DecidableEq α] {γ : Type w} [LinearOrder γ]
  {E : IntCode α} {mag : α → γ} {dv : α → α → α} {big : α → Bool} {nb ib mpt m n nrhs lda : Nat}

/-- An unordered conflict: task `i` writes a location, task `j`, created later, reads or writes
it, and no chain of dependences leads from `i` to `j`. -/
def Race (L : List (TTask (Buf × Nat × Nat) α)) : Prop :=
  ∃ (i j : Nat) (t t' : TTask (Buf × Nat × Nat) α), i < j ∧ L[i]? = some t ∧ L[j]? = some t' ∧
    (∃ a p q, t.wr a p q ∧ (t'.rd a p q ∨ t'.wr a p q)) ∧ ¬ Relation.TransGen (TEdge L) i j

theorem Race.not_covered {L : List (TTask (Buf × Nat × Nat) α)} (h : Race L) : ¬ TCovered L := by
  obtain ⟨i, j, t, t', h1, h2, h3, ⟨a, p, q, h4, h5⟩, h6⟩ := h
  exact fun hc => h6 (hc i j t t' h1 h2 h3 ⟨a, p, q, Or.inl ⟨h4, h5⟩⟩)

/-- The conversion of the third tile of the second tile column and the first update of that
column are not ordered. -/
theorem lu_race {dims : Nat → Nat × Nat} (hnb : 0 < nb) (hib : 0 < ib) (hmpt : 0 < mpt)
    (hP : dims 1 = (min (dims 0).1 (dims 0).2, 1))
    (hm : 3 * nb < (dims 0).1) (hn : nb < (dims 0).2) {ins : List Nat} (hi : ∀ k ∈ ins, k ≠ 0)
    (Z : List (TTask (Buf × Nat × Nat) α)) :
    Race ((0 :: ins).flatMap (fun k => copyK (α := α) none (tMat nb dims k) (uMat nb dims k) (tMat nb dims k)) ++
      (tasks (pzgetrf false E mag dv big ib mpt (tMat nb dims 0) (uMat nb dims 1)) ++ Z)) := by
  set A := tMat nb dims 0 with hA
  set P := uMat nb dims 1 with hPd
  set U := uMat nb dims 0 with hU
  have hok : LuOK nb A P ib mpt := ⟨al_t hnb 0, al_u hnb 1, by simp [hA, hPd, tMat, uMat, TMat.full],
    by show (dims 1).1 = _; rw [hP]; rfl, by show (dims 1).2 = _; rw [hP], hib, hmpt⟩
  have hmt : 3 < A.d.mt := hok.a.lt_mt.mpr hm
  have hnt : 1 < A.d.nt := hok.a.lt_nt.mpr (by rw [one_mul]; exact hn)
  set f := fun m n => lacpyRect (α := α) (cpLo A.d.i A.d.mb m) (cpHi A.d.i A.d.m A.d.mb A.d.mt m)
      (cpLo A.d.j A.d.nb n) (cpHi A.d.j A.d.n A.d.nb A.d.nt n) (U.at' m n) (A.at' m n) with hf
  set t := f 2 1 with ht
  -- the last occurrence of the conversion of the tile
  set C := copyK (α := α) none A U A with hC
  have htC : t ∈ C := by
    simp only [hC, copyK, List.mem_flatMap, List.mem_map, List.mem_range, cpCols]
    exact ⟨2, by omega, 1, hnt, rfl⟩
  obtain ⟨r, x, hrx, htr⟩ := List.eq_append_cons_of_mem (List.mem_reverse.mpr htC)
  have hCx : C = x.reverse ++ t :: r.reverse := by
    have := congrArg List.reverse hrx
    simpa using this
  -- the first tasks of the factorization
  have h0 : 0 < min A.d.mt A.d.nt := by omega
  obtain ⟨N, hN⟩ : ∃ N, min A.d.mt A.d.nt = N + 1 := ⟨min A.d.mt A.d.nt - 1, by omega⟩
  obtain ⟨F, hF⟩ : ∃ F, tasks (pzgetrf false E mag dv big ib mpt A P) =
      ((span 1 (A.d.mt - 1)).map (fun m => nopT [(A.at' m 0, false), (A.at' 0 0, true)]) ++
        [panelT (panelDeps false A P 0) E mag dv big ib mpt A P 0, adjustT (panelDeps false A P 0) E A P 0]) ++
        updT false E dv A P 0 1 :: F := by
    rw [tasks_pzgetrf, hN, List.range_succ_eq_map, List.flatMap_cons, tasks_getrfStep, zero_add,
      span_cons (show 1 < A.d.nt from hnt)]
    simp only [List.map_cons, List.append_assoc, List.cons_append, List.nil_append]
    exact ⟨_, rfl⟩
  set G := (span 1 (A.d.mt - 1)).map (fun m => nopT (α := α) [(A.at' m 0, false), (A.at' 0 0, true)]) ++
        [panelT (panelDeps false A P 0) E mag dv big ib mpt A P 0, adjustT (panelDeps false A P 0) E A P 0] with hG
  set C' := ins.flatMap fun k => copyK (α := α) none (tMat nb dims k) (uMat nb dims k) (tMat nb dims k) with hC'
  have heq : (0 :: ins).flatMap (fun k => copyK (α := α) none (tMat nb dims k) (uMat nb dims k) (tMat nb dims k)) ++
      (tasks (pzgetrf false E mag dv big ib mpt A P) ++ Z) =
      x.reverse ++ t :: ((r.reverse ++ C' ++ G) ++ updT false E dv A P 0 1 :: (F ++ Z)) := by
    rw [List.flatMap_cons, hF]
    show C ++ C' ++ _ = _
    rw [hCx]
    simp only [List.append_assoc, List.cons_append]
  rw [heq]
  have hdep : ∀ u : TTask (Buf × Nat × Nat) α, (∀ d ∈ u.deps, d.1 ≠ U.at' 2 1 ∧ d.1 ≠ A.at' 2 1) → u.phase = 0 →
      ¬ TDepOn t u := by
    intro u hu hp hd
    rcases hd with hd | ⟨d, hd, d', hd', e, -⟩
    · rw [hp] at hd; exact Nat.not_lt_zero _ hd
    · have hd2 : d = (U.at' 2 1, false) ∨ d = (A.at' 2 1, true) := by simpa [ht, hf, lacpyRect, op1] using hd
      obtain ⟨g1, g2⟩ := hu d' hd'
      rcases hd2 with rfl | rfl
      · exact g1 e.symm
      · exact g2 e.symm
  have hAU : ∀ m n m' n', A.at' m n ≠ U.at' m' n' := fun m n m' n' e => by
    have := congrArg Prod.fst e; simp [hA, hU, tMat, uMat, TMat.full, TMat.at'] at this
  have hAP : ∀ m n m' n', P.at' m n ≠ A.at' m' n' := fun m n m' n' e => by
    have := congrArg Prod.fst e; simp [hA, hPd, tMat, uMat, TMat.full, TMat.at'] at this
  have hPU : ∀ m n m' n', P.at' m n ≠ U.at' m' n' := fun m n m' n' e => by
    have := congrArg Prod.fst e; simp [hPd, hU, uMat, TMat.full, TMat.at'] at this
  have hAA : ∀ m n, ¬ (m = 2 ∧ n = 1) → A.at' m n ≠ A.at' 2 1 := fun m n h e => h (TMat.at'_inj.mp e)
  have hpan : ∀ d ∈ panelDeps false A P 0, d.1 ≠ U.at' 2 1 ∧ d.1 ≠ A.at' 2 1 := by
    intro d hd
    unfold panelDeps secCol at hd
    rw [if_neg (by simp), if_pos (by omega)] at hd
    simp only [List.cons_append, List.nil_append, List.mem_cons, List.not_mem_nil, or_false] at hd
    rcases hd with rfl | rfl | rfl
    · exact ⟨hAU _ _ _ _, hAA _ _ (by omega)⟩
    · exact ⟨hAU _ _ _ _, hAA _ _ (by omega)⟩
    · exact ⟨hPU _ _ _ _, hAP _ _ _ _⟩
  refine ⟨x.reverse.length, x.reverse.length + 1 + (r.reverse ++ C' ++ G).length, t, updT false E dv A P 0 1,
    by omega, ?_, ?_, ?_, no_path ?_⟩
  · rw [List.getElem?_append_right (le_refl _), Nat.sub_self]; rfl
  · rw [List.getElem?_append_right (by omega), show x.reverse.length + 1 + (r.reverse ++ C' ++ G).length - x.reverse.length =
      (r.reverse ++ C' ++ G).length + 1 by omega, List.getElem?_cons_succ,
      List.getElem?_append_right (le_refl _), Nat.sub_self]; rfl
  · refine ⟨A.at' 2 1, 0, 0, ⟨rfl, ?_⟩, Or.inr ?_⟩
    · have hc : 0 < cpHi A.d.i A.d.m A.d.mb A.d.mt 2 := by
        unfold cpHi; rw [if_neg (by omega), hok.a.mb]; exact hnb
      have hc2 : 0 < cpHi A.d.j A.d.n A.d.nb A.d.nt 1 := by
        unfold cpHi; split
        · omega
        · rw [hok.a.nb]; exact hnb
      have hj0 : cpLo A.d.j A.d.nb 1 = 0 := by unfold cpLo; simp
      have hi0 : cpLo A.d.i A.d.mb 2 = 0 := by unfold cpLo; simp
      show rect _ _ _ _ 0 0
      unfold rect
      rw [hi0, hj0]
      exact ⟨le_refl _, hc, le_refl _, hc2⟩
    · refine ⟨coreGemm .noTrans .noTrans (A.d.mview 2) (A.d.nview 1) A.d.nb (-1) (A.at' 2 0) (A.at' 0 1) 1 (A.at' 2 1), ?_, ?_⟩
      · unfold updBody
        refine List.mem_append_right _ (List.mem_flatMap.mpr ⟨2, mem_span.mpr ⟨by omega, by omega⟩, by simp⟩)
      · refine ⟨rfl, ?_, ?_⟩
        · rw [hok.a.mview (by omega)]
          have := hok.a.lt_mt.mp (show 2 < A.d.mt by omega)
          unfold tdim; omega
        · rw [hok.a.nview (by omega)]
          have := hok.a.lt_nt.mp hnt
          unfold tdim; omega
  · intro u hu
    simp only [List.append_assoc, List.mem_append, List.mem_reverse, List.mem_singleton] at hu
    rcases hu with hu | hu | hu | rfl
    · have huC : u ∈ C := by rw [hCx]; simp [hu]
      simp only [hC, copyK, List.mem_flatMap, List.mem_map] at huC
      obtain ⟨m', _, n', _, rfl⟩ := huC
      have hne : ¬ (m' = 2 ∧ n' = 1) := by
        rintro ⟨rfl, rfl⟩; exact htr hu
      refine hdep _ (fun d hd => ?_) rfl
      have hd2 : d = (U.at' m' n', false) ∨ d = (A.at' m' n', true) := by simpa [lacpyRect, op1] using hd
      rcases hd2 with rfl | rfl
      · exact ⟨fun e => hne (TMat.at'_inj.mp e), fun e => hAU _ _ _ _ e.symm⟩
      · exact ⟨hAU _ _ _ _, hAA _ _ hne⟩
    · simp only [hC', copyK, List.mem_flatMap, List.mem_map] at hu
      obtain ⟨k, hk, m', _, n', _, rfl⟩ := hu
      refine hdep _ (fun d hd => ?_) rfl
      have hk0 := hi k hk
      have hd2 : d = ((uMat nb dims k).at' m' n', false) ∨ d = ((tMat nb dims k).at' m' n', true) := by
        simpa [lacpyRect, op1] using hd
      rcases hd2 with rfl | rfl
      · exact ⟨fun e => by have := congrArg Prod.fst e; simp [hU, uMat, TMat.full, TMat.at'] at this; omega,
          fun e => by have := congrArg Prod.fst e; simp [hA, tMat, uMat, TMat.full, TMat.at'] at this⟩
      · exact ⟨fun e => by have := congrArg Prod.fst e; simp [hU, tMat, uMat, TMat.full, TMat.at'] at this,
          fun e => by have := congrArg Prod.fst e; simp [hA, tMat, TMat.full, TMat.at'] at this; omega⟩
    · rw [hG] at hu
      simp only [List.mem_append, List.mem_map, List.mem_cons, List.not_mem_nil, or_false] at hu
      rcases hu with ⟨m', _, rfl⟩ | rfl | rfl
      · refine hdep _ (fun d hd => ?_) rfl
        have hd2 : d = (A.at' m' 0, false) ∨ d = (A.at' 0 0, true) := by simpa [nopT] using hd
        rcases hd2 with rfl | rfl
        · exact ⟨hAU _ _ _ _, hAA _ _ (by omega)⟩
        · exact ⟨hAU _ _ _ _, hAA _ _ (by omega)⟩
      · exact hdep _ hpan rfl
      · exact hdep _ hpan rfl
    · refine hdep _ (fun d hd => ?_) rfl
      have hd2 : d ∈ updDeps false A P 0 1 := hd
      unfold updDeps secCol at hd2
      rw [if_neg (by simp), if_pos (by omega), if_neg (by simp), if_pos (by omega)] at hd2
      simp only [List.cons_append, List.nil_append, List.mem_cons, List.not_mem_nil, or_false] at hd2
      rcases hd2 with rfl | rfl | rfl | rfl | rfl | rfl
      all_goals first
        | exact ⟨hAU _ _ _ _, hAA _ _ (by omega)⟩
        | exact ⟨hPU _ _ _ _, hAP _ _ _ _⟩

/-- **C23**, refutation for `plasma_zgetrf`.  If list items match by base address, then for every
matrix with at least four tile rows and two tile columns, a task of the factorization accesses a
tile without being ordered after the task that fills that tile. -/
theorem C23_getrf_order_refuted (hnb : 0 < nb) (hib : 0 < ib) (hmpt : 0 < mpt) (hm : 3 * nb < m) (hn : nb < n) :
    Race (tasks (gdriverK nb (luDims m n) (fun _ => none) [0]
      (ompZgetrf false E mag dv big ib mpt (tMat nb (luDims m n) 0) (uMat nb (luDims m n) 1)) [])) := by
  have hmn : ¬ ((tMat nb (luDims m n) 0).d.m = 0 ∨ (tMat nb (luDims m n) 0).d.n = 0) := by
    show ¬ (m = 0 ∨ n = 0); omega
  unfold ompZgetrf
  rw [if_neg hmn, tasks_gdriverK]
  have := lu_race (E := E) (mag := mag) (dv := dv) (big := big) (dims := luDims m n) hnb hib hmpt rfl hm hn
    (ins := []) (by simp) []
  unfold driverK
  simpa using this

/-- **C23**, refutation for `plasma_zgesv`. -/
theorem C23_gesv_order_refuted (hnb : 0 < nb) (hib : 0 < ib) (hmpt : 0 < mpt) (hn : 3 * nb < n) (hr : 0 < nrhs) :
    Race (tasks (zgesv false E mag dv big nb ib mpt n nrhs)) := by
  have hmn : ¬ ((tMat nb (gsDims n nrhs) 0).d.n = 0 ∨ (tMat nb (gsDims n nrhs) 2).d.n = 0) := by
    show ¬ (n = 0 ∨ nrhs = 0); omega
  unfold zgesv ompZgesv
  rw [if_neg (show ¬ min n nrhs = 0 by omega), if_neg hmn, tasks_gdriverK, tasks_append]
  have := lu_race (E := E) (mag := mag) (dv := dv) (big := big) (dims := gsDims n nrhs) hnb hib hmpt
    (by show (n, 1) = (min n n, 1); rw [Nat.min_self]) (show 3 * nb < n from hn) (show nb < n by omega)
    (ins := [2]) (by simp)
  unfold driverK
  rw [List.append_assoc, List.append_assoc]
  exact this _

/-- **C23**, what holds.  With base address matching the conflicts of `plasma_zgetrf` are all
ordered exactly if there are at most three tile rows or at most one tile column. -/
theorem C23_getrf_order_partial (hnb : 0 < nb) (hib : 0 < ib) (hmpt : 0 < mpt) (h0 : 0 < min m n) :
    TCovered (tasks (gdriverK nb (luDims m n) (fun _ => none) [0]
      (ompZgetrf false E mag dv big ib mpt (tMat nb (luDims m n) 0) (uMat nb (luDims m n) 1)) [])) ↔
    m ≤ 3 * nb ∨ n ≤ nb := by
  constructor
  · intro h
    by_contra hc
    push Not at hc
    exact (C23_getrf_order_refuted hnb hib hmpt hc.1 hc.2).not_covered h
  · intro h
    have hmn : ¬ ((tMat nb (luDims m n) 0).d.m = 0 ∨ (tMat nb (luDims m n) 0).d.n = 0) := by
      show ¬ (m = 0 ∨ n = 0); omega
    unfold ompZgetrf
    rw [if_neg hmn]
    exact (lu_good (lda := m) (Or.inr h) hnb hib hmpt).cov

/-- **C23**, what holds of the asynchronous function.  The tasks of `plasma_omp_zgetrf` alone
(applied to a matrix that is in tile layout already) are properly ordered with either way of
matching, for all numbers of tiles. -/
theorem C23_omp_getrf_order_partial (hnb : 0 < nb) (hib : 0 < ib) (hmpt : 0 < mpt) (rg : Bool) :
    TCovered (tasks (ompZgetrf rg E mag dv big ib mpt (tMat nb (luDims m n) 0) (uMat nb (luDims m n) 1))) := by
  have hfit := lu_fit (m := m) (n := n) (lda := m) hnb hib hmpt
  unfold ompZgetrf
  split
  · intro i j t t' _ hi; simp [tasks] at hi
  cases rg
  · exact pzgetrf_cov hfit.ok
  · exact tcovered_of_declared (pzgetrf_good hfit).decl

end

/-- The hypotheses are met by a 4×2 matrix with tiles of order 1 (a race) and by a 3×3 one (no
race). -/
example : Race (tasks (gdriverK 1 (luDims 4 2) (fun _ => none) [0]
      (ompZgetrf false ratCode (fun x : ℚ => |x|) qdv (fun _ => true) 1 1 (tMat 1 (luDims 4 2) 0)
        (uMat 1 (luDims 4 2) 1)) [])) ∧
    TCovered (tasks (gdriverK 1 (luDims 3 3) (fun _ => none) [0]
      (ompZgetrf false ratCode (fun x : ℚ => |x|) qdv (fun _ => true) 1 1 (tMat 1 (luDims 3 3) 0)
        (uMat 1 (luDims 3 3) 1)) [])) ∧
    Race (tasks (zgesv false ratCode (fun x : ℚ => |x|) qdv (fun _ => true) 1 1 1 4 1)) :=
  ⟨C23_getrf_order_refuted (by decide) (by decide) (by decide) (by decide) (by decide),
   (C23_getrf_order_partial (by decide) (by decide) (by decide) (by decide)).mpr (Or.inl (by decide)),
   C23_gesv_order_refuted (by decide) (by decide) (by decide) (by decide) (by decide)⟩

end Verif.Props

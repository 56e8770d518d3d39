/-
All tasks of `plasma_pzhetrf_aasen` in program order.
-/
import Verif.AasenRun

namespace Verif.Aasen

open Verif.Tile Verif.Layout Verif.LU Verif.Panel Verif.Heswp Finset

set_option linter.unusedSectionVars false

universe u v w

variable {M : Type u} {α : Type v} [Field α] [StarRing α] [DecidableEq α] [DecidableEq M] {γ : Type w} [LinearOrder γ]
variable {E : IntCode α} {mag : α → γ} {dv : α → α → α} {big : α → Bool} {z : AC} {Z : AM M} {k : Nat}

/-- The tasks that update column `k`. -/
noncomputable def updT (z : AC) (Z : AM M) (k : Nat) : List (TTask (M × Nat × Nat) α) :=
  if 0 < k then
    (if useW5 z k then (List.range' 1 k).map (w5MT z Z k) ++ (tree (w5num z k)).map (w5ST z Z k) ++ [w5AT z Z k]
     else (List.range' 1 k).map (colT z Z k)) else []

/-- The tasks after the panel. -/
def postT (E : IntCode α) (dv : α → α → α) (z : AC) (Z : AM M) (k : Nat) : List (TTask (M × Nat × Nat) α) :=
  (List.range' 1 k).map (rowT E z Z k) ++
  ([kCpU (z.mv (k + 1)) (z.mv k) (Z.a (k + 1) k) (Z.t z (k + 1) k), kSetU (z.mv (k + 1)) (z.mv k) (Z.a (k + 1) k)] ++
    (if 0 < k then [kTrsm dv (z.mv (k + 1)) (z.mv k) (Z.a k (k - 1)) (Z.t z (k + 1) k)] else [])) ++ [symT E z Z k]

theorem upd_run (hz : z.OK) (hZ : AMOK z Z) (hk : k < z.mt) (s : Store (M × Nat × Nat) α) :
    ab E z Z (texec (updT z Z k) s) = colUpd z k (ab E z Z s) := by
  unfold updT colUpd
  by_cases h0 : 0 < k
  · rw [if_pos h0, if_pos h0]
    by_cases h1 : useW5 z k
    · rw [if_pos h1, if_pos (show z.mt - k < z.mth from h1), texec_append, texec_append, texec_cons, texec_nil,
        w5A_run hz hZ hk, w5S_run hz hZ hk, w5M_run hz hZ hk]
    · rw [if_neg h1, if_neg (show ¬ z.mt - k < z.mth from h1), col_run hz hZ hk]
  · rw [if_neg h0, if_neg h0, texec_nil]

theorem panelS_piv (hz : z.OK) (hmag : IsMag mag) (hdv : IsDiv dv) (hk : k + 1 < z.mt) {s : AS α} (h0 : infov (pOut mag dv big z k s.a) = 0)
    (hst : s.st = 0) : PvR z k (panelS mag dv big z k s).piv := by
  have hmk : z.mv k = z.b := hz.mvb hk
  have hkN := hz.lt.mp hk
  have hpz : (pCfg z k).OK := by
    refine ⟨hz.b, hz.ib, ?_, ?_⟩
    · show 0 < min z.mpt (z.mt - (k + 1))
      have := hz.mpt; omega
    · show z.mv k ≤ z.b
      omega
  obtain ⟨q1, -, -⟩ := (panel_ok hpz hmag hdv big (fun x i c => match x with
    | .a l => (s.a ((k + 1) * z.b + (l * z.b + i)) (k * z.b + c), 0)
    | _ => (0, 0)) rfl (s' := pOut mag dv big z k s.a) rfl).1 h0
  intro i h1 h2
  have e : (panelS mag dv big z k s).piv i = pivv (pOut mag dv big z k s.a) (i - (k + 1) * z.b) + (k + 1) * z.b := by
    unfold panelS
    rw [if_neg (by omega)]
    simp only
    rw [if_pos ⟨h1, h2⟩]
  have h3 := q1 (i - (k + 1) * z.b) (by show _ < min (z.N - (k + 1) * z.b) (z.mv k); unfold pcnt at h2; omega)
  have h4 : (pCfg z k).M = z.N - (k + 1) * z.b := rfl
  rw [e]
  omega

theorem post_run (hz : z.OK) (hZ : AMOK z Z) (hk : k + 1 < z.mt) (s : Store (M × Nat × Nat) α) (hp : PvR z k (ab E z Z s).piv) :
    ab E z Z (texec (postT E dv z Z k) s) = symSwap z k (offT dv z k (rowSwap z k (ab E z Z s))) := by
  unfold postT
  rw [texec_append, texec_append, texec_cons, texec_nil]
  have e1 := rows_run hz hZ hk s hp
  have e2 := offT_run (E := E) (dv := dv) hz hZ hk (texec ((List.range' 1 k).map (rowT E z Z k)) s)
  have hpv : (ab E z Z (texec ([kCpU (z.mv (k + 1)) (z.mv k) (Z.a (k + 1) k) (Z.t z (k + 1) k), kSetU (z.mv (k + 1)) (z.mv k) (Z.a (k + 1) k)] ++
      (if 0 < k then [kTrsm dv (z.mv (k + 1)) (z.mv k) (Z.a k (k - 1)) (Z.t z (k + 1) k)] else []))
      (texec ((List.range' 1 k).map (rowT E z Z k)) s))).piv = (ab E z Z s).piv := by
    rw [e2, e1]
    have hst : (ab E z Z s).st = 0 := rfl
    unfold offT rowSwap setT
    simp only [hst, ne_eq, not_true_eq_false, if_false, true_and]
    split <;> rfl
  rw [symT_run hz hZ hk _ (by rw [hpv]; exact hp), e2, e1]

/-- The tasks of a step. -/
noncomputable def stepT (E : IntCode α) (mag : α → γ) (dv : α → α → α) (big : α → Bool) (z : AC) (Z : AM M) (k : Nat) :
    List (TTask (M × Nat × Nat) α) :=
  preT dv z Z k ++ (if k + 1 < z.mt then updT z Z k ++ [panelT E mag dv big z Z k] ++ postT E dv z Z k else []) ++ [copyTT z Z k]

theorem step_run (hz : z.OK) (hZ : AMOK z Z) (hmag : IsMag mag) (hdv : IsDiv dv) (hk : k < z.mt) (s : Store (M × Nat × Nat) α)
    (h : k + 1 < z.mt → infov (pOut mag dv big z k (Z.A.el (texec (preT dv z Z k ++ updT z Z k) s))) = 0) :
    ab E z Z (texec (stepT E mag dv big z Z k) s) = stepA mag dv big z (ab E z Z s) k := by
  unfold stepT stepA
  rw [texec_append, texec_append, texec_cons, texec_nil, copyT_run hz hZ hk]
  by_cases hc : k + 1 < z.mt
  · rw [if_pos hc]
    simp only [if_pos hc]
    have h' := h hc
    rw [texec_append] at h'
    rw [texec_append, texec_append, texec_cons, texec_nil]
    have e1 := panelT_run (E := E) (mag := mag) (dv := dv) (big := big) hz hZ hc _ h'
    have e0 := upd_run (E := E) hz hZ hk (texec (preT dv z Z k) s)
    have hst : (ab E z Z (texec (updT z Z k) (texec (preT dv z Z k) s))).st = 0 := rfl
    have hp := panelS_piv (mag := mag) (dv := dv) (big := big) hz hmag hdv hc (s := ab E z Z (texec (updT z Z k) (texec (preT dv z Z k) s))) h' hst
    rw [post_run hz hZ hc _ (by rw [e1]; exact hp), e1, e0, preT_run hz hZ hk]
  · rw [if_neg hc]
    simp only [if_neg hc]
    rw [texec_nil, preT_run hz hZ hk]

/-- The tasks of the first `K` steps. -/
noncomputable def stepsT (E : IntCode α) (mag : α → γ) (dv : α → α → α) (big : α → Bool) (z : AC) (Z : AM M) (K : Nat) :
    List (TTask (M × Nat × Nat) α) := (List.range K).flatMap (stepT E mag dv big z Z)

theorem steps_run (hz : z.OK) (hZ : AMOK z Z) (hmag : IsMag mag) (hdv : IsDiv dv) (s : Store (M × Nat × Nat) α) {K : Nat} (hK : K ≤ z.mt)
    (h : ∀ k, k < K → k + 1 < z.mt →
      infov (pOut mag dv big z k (Z.A.el (texec (stepsT E mag dv big z Z k ++ (preT dv z Z k ++ updT z Z k)) s))) = 0) :
    ab E z Z (texec (stepsT E mag dv big z Z K) s) = stepsA mag dv big z (ab E z Z s) K := by
  induction K with
  | zero => rfl
  | succ K ih =>
    unfold stepsT stepsA
    rw [List.range_succ, List.flatMap_append, texec_append, List.foldl_append, List.flatMap_cons, List.flatMap_nil, List.append_nil,
      List.foldl_cons, List.foldl_nil]
    have := ih (by omega) fun k hk => h k (by omega)
    rw [step_run hz hZ hmag hdv (by omega)]
    · show stepA mag dv big z (ab E z Z (texec (stepsT E mag dv big z Z K) s)) K = _
      rw [this]
      rfl
    · intro hc
      have := h K (by omega) hc
      rwa [texec_append] at this

/-! ### The program by labels -/

theorem map_get {ι : Type*} {β : Type*} (l : List ι) (f : ι → β) (d : ι) : (List.range l.length).map (fun i => f ((l[i]?).getD d)) = l.map f := by
  refine List.ext_getElem (by simp) ?_
  intro i h1 h2
  simp at h1
  simp [h1]

theorem step_labs : (aStepLabs (α := α) dv z Z k).map (aTask E mag dv big z Z) = stepT E mag dv big z Z k := by
  unfold aStepLabs stepT updT postT
  simp only [List.map_append, List.map_map, List.map_cons, List.map_nil]
  congr 1
  congr 1
  · refine Eq.trans ?_ ((map_get (preT (α := α) dv z Z k) id (kExp 0 Z.w0)).trans (List.map_id _))
    exact List.map_congr_left fun i _ => rfl
  · by_cases hc : k + 1 < z.mt
    · rw [if_pos hc, if_pos hc]
      simp only [List.map_append, List.map_map, List.map_cons, List.map_nil, List.append_assoc]
      congr 1
      · by_cases h0 : 0 < k
        · rw [if_pos h0, if_pos h0]
          by_cases h1 : useW5 z k
          · rw [if_pos h1, if_pos h1]
            simp only [List.map_append, List.map_map, List.map_cons, List.map_nil, List.append_assoc]
            congr 1
            · exact List.map_congr_left fun i _ => if_pos h1
            · congr 1
              exact map_get (tree (w5num z k)) (w5ST (α := α) z Z k) (0, 0)
          · rw [if_neg h1, if_neg h1, List.append_nil, List.map_map]
            exact List.map_congr_left fun i _ => if_neg h1
        · rw [if_neg h0, if_neg h0]; rfl
      · congr 1
        congr 1
        simp only [List.cons_append, List.nil_append]
        congr 1
        congr 1
        by_cases h0 : 0 < k
        · rw [if_pos h0, if_pos h0]; rfl
        · rw [if_neg h0, if_neg h0]; rfl
    · rw [if_neg hc, if_neg hc]; rfl

theorem prog_labs : tasks (pzhetrfAasen E mag dv big z Z) = (aLabs (α := α) dv z Z).map (aTask E mag dv big z Z) := by
  unfold pzhetrfAasen tasks
  rw [List.map_map]
  rfl

theorem labs_steps {K : Nat} : ((List.range K).flatMap (aStepLabs (α := α) dv z Z)).map (aTask E mag dv big z Z) = stepsT E mag dv big z Z K := by
  unfold stepsT
  rw [List.map_flatMap]
  exact List.flatMap_congr fun k _ => step_labs

theorem prog_steps : tasks (pzhetrfAasen E mag dv big z Z) = stepsT (α := α) E mag dv big z Z z.mt := by
  rw [prog_labs]; exact labs_steps

/-- The tasks before a panel. -/
theorem prog_split (hk : k + 1 < z.mt) : ∃ L1 L2, aLabs (α := α) dv z Z = L1 ++ (k, 4, 0) :: L2 ∧
    L1.map (aTask E mag dv big z Z) = stepsT E mag dv big z Z k ++ (preT dv z Z k ++ updT z Z k) := by
  have hr : List.range z.mt = List.range k ++ k :: List.range' (k + 1) (z.mt - k - 1) := by
    rw [List.range_eq_range', List.range_eq_range', ← List.range'_succ, show z.mt - k - 1 + 1 = z.mt - k by omega]
    have := List.range'_append (s := 0) (m := k) (n := z.mt - k) (step := 1)
    rw [show k + (z.mt - k) = z.mt by omega] at this
    simpa using this.symm
  have hs : ∃ T1 T2, aStepLabs (α := α) dv z Z k = T1 ++ (k, 4, 0) :: T2 ∧ T1.map (aTask E mag dv big z Z) = preT dv z Z k ++ updT z Z k := by
    have h1 := step_labs (E := E) (mag := mag) (dv := dv) (big := big) (z := z) (Z := Z) (k := k)
    refine ⟨((List.range (preT (α := α) dv z Z k).length).map fun i => (k, 0, i)) ++ (if 0 < k then
        ((List.range' 1 k).map fun n => (k, 1, n)) ++
        (if useW5 z k then ((List.range (tree (w5num z k)).length).map fun i => (k, 2, i)) ++ [(k, 3, 0)] else []) else []),
      ((List.range' 1 k).map fun n => (k, 5, n)) ++ [(k, 6, 0), (k, 7, 0)] ++ (if 0 < k then [(k, 8, 0)] else []) ++ [(k, 9, 0)] ++ [(k, 10, 0)],
      ?_, ?_⟩
    · unfold aStepLabs
      rw [if_pos hk]
      simp only [List.append_assoc, List.cons_append, List.nil_append]
    · have h2 : ∀ (P1 Q1 P2 Q2 : List (TTask (M × Nat × Nat) α)), P1 ++ P2 = Q1 ++ Q2 → P2.length = Q2.length → P1 = Q1 := by
        intro P1 Q1 P2 Q2 h hl
        exact (List.append_inj' h hl).1
      refine h2 _ _ ((((k, 4, 0) : ALab) :: (((List.range' 1 k).map fun n => (k, 5, n)) ++ [(k, 6, 0), (k, 7, 0)] ++ (if 0 < k then [(k, 8, 0)] else []) ++
        [(k, 9, 0)] ++ [(k, 10, 0)])).map (aTask E mag dv big z Z)) ([panelT E mag dv big z Z k] ++ postT E dv z Z k ++ [copyTT z Z k]) ?_ ?_
      · rw [← List.map_append]
        refine Eq.trans ?_ (h1.trans ?_)
        · congr 1
          unfold aStepLabs
          rw [if_pos hk]
          simp only [List.append_assoc, List.cons_append, List.nil_append]
        · unfold stepT
          rw [if_pos hk]
          simp only [List.append_assoc]
      · unfold postT
        by_cases h0 : 0 < k
        · simp [h0]
        · simp [h0]
  obtain ⟨T1, T2, e1, e2⟩ := hs
  refine ⟨(List.range k).flatMap (aStepLabs (α := α) dv z Z) ++ T1, T2 ++ (List.range' (k + 1) (z.mt - k - 1)).flatMap (aStepLabs (α := α) dv z Z), ?_, ?_⟩
  · unfold aLabs
    rw [hr, List.flatMap_append, List.flatMap_cons, e1]
    simp only [List.append_assoc, List.cons_append]
  · rw [List.map_append, e2, labs_steps]

/-- The code of a panel. -/
theorem prog_at {s : Store (M × Nat × Nat) α} {L1 L2 : List ALab} (hL : aLabs (α := α) dv z Z = L1 ++ (k, 4, 0) :: L2)
    (hT : L1.map (aTask E mag dv big z Z) = stepsT E mag dv big z Z k ++ (preT dv z Z k ++ updT z Z k)) :
    tcode (pzhetrfAasen E mag dv big z Z) s L1.length =
      panelC mag dv big z Z k (texec (stepsT E mag dv big z Z k ++ (preT dv z Z k ++ updT z Z k)) s) := by
  unfold tcode
  have hP : pzhetrfAasen E mag dv big z Z = L1.map (aG E mag dv big z Z) ++ aG E mag dv big z Z (k, 4, 0) :: L2.map (aG E mag dv big z Z) := by
    unfold pzhetrfAasen
    rw [hL, List.map_append, List.map_cons]
  have hg : (pzhetrfAasen E mag dv big z Z)[L1.length]? = some (aG E mag dv big z Z (k, 4, 0)) := by
    rw [hP, List.getElem?_append_right (by simp)]
    simp
  rw [hg]
  have ht : (tasks (pzhetrfAasen E mag dv big z Z)).take L1.length = stepsT E mag dv big z Z k ++ (preT dv z Z k ++ updT z Z k) := by
    rw [prog_labs, hL, List.map_append, List.take_append_of_le_length (by simp)]
    rw [← hT]
    simp
  rw [ht]
  simp only [aG, if_true]

/-- No kernel fails: the panels do not. -/
theorem prog_codes {s : Store (M × Nat × Nat) α} (h : ∀ i, tcode (pzhetrfAasen E mag dv big z Z) s i = 0) (hk : k + 1 < z.mt) :
    infov (pOut mag dv big z k (Z.A.el (texec (stepsT E mag dv big z Z k ++ (preT dv z Z k ++ updT z Z k)) s))) = 0 := by
  obtain ⟨L1, L2, hL, hT⟩ := prog_split (E := E) (mag := mag) (dv := dv) (big := big) (Z := Z) hk
  have h1 := h L1.length
  rw [prog_at hL hT] at h1
  unfold panelC at h1
  by_contra hc
  rw [if_neg hc] at h1
  omega

/-- If no kernel fails then the tasks in program order compute `stepsA`. -/
theorem prog_run (hz : z.OK) (hZ : AMOK z Z) (hmag : IsMag mag) (hdv : IsDiv dv) {s : Store (M × Nat × Nat) α}
    (h : ∀ i, tcode (pzhetrfAasen E mag dv big z Z) s i = 0) :
    ab E z Z (texec (tasks (pzhetrfAasen E mag dv big z Z)) s) = stepsA mag dv big z (ab E z Z s) z.mt := by
  rw [prog_steps]
  exact steps_run hz hZ hmag hdv s (le_refl _) fun k _ hk => prog_codes h hk

end Verif.Aasen

/-
The factorization fails exactly if the steps in program order do.
-/
import Verif.AasenExec

set_option linter.unusedSectionVars false

namespace Verif.Aasen

open Verif.Tile Verif.Layout Verif.LU Verif.Panel Verif.Heswp Finset

universe u v w

variable {M : Type u} {α : Type v} [Field α] [StarRing α] [DecidableEq α] [DecidableEq M] {γ : Type w} [LinearOrder γ]
variable {E : IntCode α} {mag : α → γ} {dv : α → α → α} {big : α → Bool} {z : AC} {Z : AM M} {k : Nat}

theorem stepsA_keep {s : AS α} {K J : Nat} (h : (stepsA mag dv big z s K).st ≠ 0) : (stepsA mag dv big z s (K + J)).st ≠ 0 := by
  induction J with
  | zero => exact h
  | succ J ih =>
    rw [← Nat.add_assoc, stepsA_succ, st_keep ih]
    exact ih

/-- A panel that fails sets the status. -/
theorem stepA_bad {s s' : AS α} (hk : k + 1 < z.mt) (hs' : s' = colUpd z k (diagH z k (diagT dv z k (hPre z k s)))) (h0 : s'.st = 0)
    (h : infov (pOut mag dv big z k s'.a) ≠ 0) : (stepA mag dv big z s k).st ≠ 0 := by
  have hp : (panelS mag dv big z k s').st ≠ 0 := by
    unfold panelS
    rw [if_neg (by omega)]
    simp only
    rw [if_neg h]
    omega
  unfold stepA
  simp only [if_pos hk, ← hs']
  generalize panelS mag dv big z k s' = s4 at *
  unfold copyT symSwap offT rowSwap setT
  simp only [if_pos hp, if_neg (show ¬ (s4.st = 0 ∧ 0 < k) by omega)]
  exact hp

/-- If the steps succeed then no panel fails. -/
theorem prog_codes_of (hz : z.OK) (hZ : AMOK z Z) (hmag : IsMag mag) (hdv : IsDiv dv) {s : Store (M × Nat × Nat) α}
    (h : (stepsA mag dv big z (ab E z Z s) z.mt).st = 0) (hk : k + 1 < z.mt) :
    infov (pOut mag dv big z k (Z.A.el (texec (stepsT E mag dv big z Z k ++ (preT dv z Z k ++ updT z Z k)) s))) = 0 := by
  induction k using Nat.strong_induction_on with
  | _ k ih =>
    have hrun := steps_run hz hZ hmag hdv s (K := k) (by omega) fun j hj _ => ih j hj (by omega)
    by_contra hc
    obtain ⟨s1, hs1⟩ : ∃ s1, s1 = texec (stepsT E mag dv big z Z k) s := ⟨_, rfl⟩
    rw [texec_append, ← hs1] at hc
    rw [← hs1] at hrun
    have e : ab E z Z (texec (preT dv z Z k ++ updT z Z k) s1) = colUpd z k (diagH z k (diagT dv z k (hPre z k (ab E z Z s1)))) := by
      rw [texec_append, upd_run hz hZ (by omega), preT_run hz hZ (by omega)]
    have hb := stepA_bad (mag := mag) (dv := dv) (big := big) hk e rfl hc
    rw [hrun, ← stepsA_succ] at hb
    have := stepsA_keep (J := z.mt - (k + 1)) hb
    rw [show k + 1 + (z.mt - (k + 1)) = z.mt by omega] at this
    exact this h

/-- The codes are zero if the steps succeed. -/
theorem prog_ok (hz : z.OK) (hZ : AMOK z Z) (hmag : IsMag mag) (hdv : IsDiv dv) {s : Store (M × Nat × Nat) α}
    (h : (stepsA mag dv big z (ab E z Z s) z.mt).st = 0) (i : Nat) : tcode (pzhetrfAasen E mag dv big z Z) s i = 0 := by
  by_contra h0
  have hi : i < (pzhetrfAasen E mag dv big z Z).length := by
    by_contra hi
    exact h0 (tcode_len _ _ (by omega))
  have hla : (aLabs (α := α) dv z Z).length = (pzhetrfAasen E mag dv big z Z).length := by unfold pzhetrfAasen; rw [List.length_map]
  have hi' : i < (aLabs (α := α) dv z Z).length := by omega
  obtain ⟨⟨k, st, j⟩, hl⟩ : ∃ l, (aLabs (α := α) dv z Z)[i] = l := ⟨_, rfl⟩
  have hg : (pzhetrfAasen E mag dv big z Z)[i]? = some (aG E mag dv big z Z (k, st, j)) := by
    unfold pzhetrfAasen
    rw [List.getElem?_map, List.getElem?_eq_getElem hi', hl]
    rfl
  have hmem : ((k, st, j) : ALab) ∈ aLabs (α := α) dv z Z := by rw [← hl]; exact List.getElem_mem _
  have h4 : st = 4 := by
    by_contra h4
    apply h0
    unfold tcode
    rw [hg]
    simp only [aG, if_neg h4]
  subst h4
  have hk : k + 1 < z.mt := (lab_facts hmem).2.2.1 (by decide) (by decide)
  have hj : j = 0 := by
    have := (mem_aLabs.mp hmem).2
    rcases this with h | h | h
    · omega
    · omega
    · have := h.2
      omega
  subst hj
  obtain ⟨L1, L2, hL, hT⟩ := prog_split (E := E) (mag := mag) (dv := dv) (big := big) (Z := Z) hk
  have hnd : (aLabs (α := α) dv z Z).Nodup := (aLabs_sorted (α := α)).imp fun {a b} h e => by subst e; exact aLt_asym _ _ h h
  have hiL : i = L1.length := by
    have h1 : L1.length < (aLabs (α := α) dv z Z).length := by rw [hL]; simp
    refine (hnd.getElem_inj_iff (hi := hi') (hj := h1)).mp ?_
    rw [hl]
    simp [hL]
  subst hiL
  rw [prog_at hL hT] at h0
  unfold panelC at h0
  rw [if_pos (prog_codes_of hz hZ hmag hdv h hk)] at h0
  exact h0 rfl

/-- The state at the start. -/
theorem aasen_ab {env : M → MatEnv} (hz : z.OK) (hbN : z.b ≤ z.N) (hZ : AMOK z Z) (hF : AFit env z Z) {s : Store (M × Nat × Nat) α}
    (hS : AStart env E z Z s) : ∃ (s0 : Store (M × Nat × Nat) α) (A1 : Nat → Nat → α) (piv : Nat → Nat),
      (∀ a i j, evalid env a i j → s a i j = s0 a i j) ∧ ab E z Z s0 = startA z A1 piv (Z.T.el s0) ∧
      ∀ r c, r < z.N → c < z.N → c / z.b ≤ r / z.b → A1 r c = Z.A.el s r c := by
  classical
  have hb := hz.b
  obtain ⟨s0, h0⟩ : ∃ s0 : Store (M × Nat × Nat) α, s0 = fun x i j => if evalid env x i j then s x i j else 0 := ⟨_, rfl⟩
  have e0 : ∀ a i j, evalid env a i j → s a i j = s0 a i j := fun a i j h => by rw [h0]; exact (if_pos h).symm
  have zW : ∀ q, s0 (Z.W.at' q 0) = fun _ _ => 0 := by
    intro q
    funext i j
    rw [h0]
    simp only
    by_cases h : evalid env (Z.W.at' q 0) i j
    · rw [if_pos h]; exact hS.w _ i j rfl h
    · rw [if_neg h]
  have vP : ∀ i, i < z.N → evalid env (Z.P.at' (i / z.b) 0) (i % z.b) 0 := fun i hi => by
    refine hF.fp.validOn trivial (by rw [hF.pm]; exact mod_lt_tdim hb hi) ?_
    rw [hF.pn, tdim_row]; omega
  refine ⟨s0, Z.A.el s0, fun i => E.dec (Z.P.el s0 i 0), e0, ?_, fun r c hr hc h => ?_⟩
  · refine AS.ext' rfl ?_ ?_ ?_ (zW 0) ?_ ?_ ?_ rfl
    · funext m n
      show (if m < z.mt ∧ (m = n ∨ m = n + 1) then s0 (Z.t z m n) else fun _ _ => 0) = _
      split
      · exact zW _
      · rfl
    · funext m
      show (if m < z.mt then s0 (Z.h m) else fun _ _ => 0) = _
      split
      · exact zW _
      · rfl
    · funext m
      show (if m < z.mt then s0 (Z.w3 z m) else fun _ _ => 0) = _
      split
      · exact zW _
      · rfl
    · funext m; exact zW _
    · rfl
    · funext i
      show E.dec (Z.P.el s0 i 0) = if i < z.b then i + 1 else E.dec (Z.P.el s0 i 0)
      by_cases hi : i < z.b
      · rw [if_pos hi, ← hS.p i hi (by omega)]
        unfold TMat.el
        rw [hZ.p.mb, hZ.p.nb, Nat.zero_div, Nat.zero_mod, e0 _ _ _ (vP i (by omega))]
      · rw [if_neg hi]
  · unfold TMat.el
    rw [hZ.a.mb, hZ.a.nb]
    exact (e0 _ _ _ (hF.fa.validOn h (by rw [hF.am]; exact mod_lt_tdim hb hr) (by rw [hF.an]; exact mod_lt_tdim hb hc))).symm

/-- The codes are zero exactly if the steps succeed. -/
theorem aasen_codes {env : M → MatEnv} (hz : z.OK) (hbN : z.b ≤ z.N) (hZ : AMOK z Z) (hF : AFit env z Z) (hmag : IsMag mag) (hdv : IsDiv dv)
    {s : Store (M × Nat × Nat) α} (hS : AStart env E z Z s) : ∃ (A1 : Nat → Nat → α) (piv : Nat → Nat) (tb : Nat → Nat → α),
      (∀ r c, r < z.N → c < z.N → c / z.b ≤ r / z.b → A1 r c = Z.A.el s r c) ∧
      ((∀ i, tcode (pzhetrfAasen E mag dv big z Z) s i = 0) ↔ (stepsA mag dv big z (startA z A1 piv tb) z.mt).st = 0) := by
  have hg := aasen_good (E := E) (mag := mag) (dv := dv) (big := big) hz hZ hF
  have hC := aasen_codeOK (E := E) (mag := mag) (dv := dv) (big := big) hz hZ
  obtain ⟨s0, A1, piv, e0, h1, h2⟩ := aasen_ab hz hbN hZ hF hS
  refine ⟨A1, piv, Z.T.el s0, h2, ?_⟩
  have hcc : ∀ i, tcode (pzhetrfAasen E mag dv big z Z) s i = tcode (pzhetrfAasen E mag dv big z Z) s0 i := fun i =>
    tcode_congr hg.loc hg.ins hC e0 i
  rw [← h1]
  constructor
  · intro h
    rw [← prog_run hz hZ hmag hdv (fun i => by rw [← hcc]; exact h i)]
    rfl
  · intro h i
    rw [hcc]
    exact prog_ok hz hZ hmag hdv h i

end Verif.Aasen

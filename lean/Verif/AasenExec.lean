/-
Every execution of the tasks of `plasma_pzhetrf_aasen`.
-/
import Verif.AasenDep
import Verif.AasenProof

namespace Verif.Aasen

open Verif.Tile Verif.Layout Verif.LU Verif.Panel Verif.Heswp Finset

set_option linter.unusedSectionVars false

universe u v w

section
variable {α : Type v} [Field α] [StarRing α] [DecidableEq α] {γ : Type w} [LinearOrder γ]
variable {z : AC} {dv : α → α → α} {mag : α → γ} {big : α → Bool}

theorem put_far {b m n mm nn : Nat} (hb : 0 < b) (hm : mm ≤ b) (hn : nn ≤ b) {X : Nat → Nat → α} {Y : Tl α} {r c : Nat} (h : ¬ (r / b = m ∧ c / b = n)) :
    put b X m n mm nn Y r c = X r c := by
  unfold put
  rw [if_neg]
  intro hc
  refine h ⟨Nat.div_eq_of_lt_le hc.1 ?_, Nat.div_eq_of_lt_le hc.2.2.1 ?_⟩
  · rw [Nat.succ_mul]; omega
  · rw [Nat.succ_mul]; omega

theorem copy_far (hz : z.OK) {k : Nat} {s : AS α} {r c : Nat} (h : c / z.b + 1 < r / z.b ∨ r / z.b + 1 < c / z.b) :
    (copyT z k s).tb r c = s.tb r c := by
  have hb := hz.b
  have hm : ∀ m, z.mv m ≤ z.b := fun m => hmv_le hb m
  unfold copyT
  simp only
  split <;> split <;> (repeat rw [put_far hb (hm _) (hm _) (by omega)])

/-- Tiles of the band matrix away from the diagonal are not touched. -/
theorem step_far (hz : z.OK) (hmag : IsMag mag) (hdv : IsDiv dv) {k : Nat} (hk : k < z.mt) {S : Nat → Nat → α} (hS : ∀ r c, star (S r c) = S c r)
    {s : AS α} (hI : Inv z S k s) (h0 : (stepA mag dv big z s k).st = 0) {r c : Nat} (h : c / z.b + 1 < r / z.b ∨ r / z.b + 1 < c / z.b) :
    (stepA mag dv big z s k).tb r c = s.tb r c := by
  obtain ⟨s', hs'⟩ : ∃ s', s' = stepA mag dv big z s k := ⟨_, rfl⟩
  rw [← hs'] at h0 ⊢
  unfold stepA at hs'
  obtain ⟨s3, h3⟩ : ∃ s3, s3 = diagH z k (diagT dv z k (hPre z k s)) := ⟨_, rfl⟩
  rw [← h3] at hs'
  obtain ⟨d1, d2, d3, d4, Y, d5, hY, hh, hd⟩ := diag_step hz hdv hk hS hI h3
  by_cases hk1 : k + 1 < z.mt
  · simp only [if_pos hk1] at hs'
    obtain ⟨a4, w4, e4, ha4⟩ := colUpd_eff hz hk1 s3
    rw [e4] at hs'
    obtain ⟨s5, h5⟩ : ∃ s5, s5 = symSwap z k (offT dv z k (rowSwap z k (panelS mag dv big z k { s3 with a := a4, w5 := w4 }))) := ⟨_, rfl⟩
    rw [← h5] at hs'
    have hz0 : s3.t (k + 1) k = fun _ _ => 0 := by
      rw [d5, setT_t_ne (by omega)]; exact (hI.tz k (le_refl _)).2
    have hst : s'.st = s5.st := by rw [hs']; rfl
    obtain ⟨f1, f2⟩ := low_eff hz hmag hdv hk1 (s := { s3 with a := a4, w5 := w4 }) d4 hz0 h5 rfl rfl
    obtain ⟨g1, -⟩ := f2 (hst ▸ h0)
    rw [hs', copy_far hz h, g1, d3]
  · simp only [if_neg hk1] at hs'
    rw [hs', copy_far hz h, d3]

/-- The band matrix on exit is `T`; the other tiles are as before. -/
theorem aasen_band {tb0 : Nat → Nat → α} (hz : z.OK) (hmag : IsMag mag) (hdv : IsDiv dv) {A : Nat → Nat → α} (hA : ∀ i, i < z.N → star (A i i) = A i i)
    (piv : Nat → Nat) {s : AS α} (hs : s = stepsA mag dv big z (startA z A piv tb0) z.mt) (h0 : s.st = 0) {r c : Nat} (hr : r < z.N) (hc : c < z.N) :
    s.tb r c = if r / z.b ≤ c / z.b + 1 ∧ c / z.b ≤ r / z.b + 1 then Tf z.b s.t r c else tb0 r c := by
  have hb := hz.b
  have hmtN : z.N ≤ z.mt * z.b := by
    have : ¬ z.mt < z.mt := Nat.lt_irrefl _
    rw [hz.lt] at this; omega
  by_cases hn : r / z.b ≤ c / z.b + 1 ∧ c / z.b ≤ r / z.b + 1
  · have hI := (inv_all (big := big) hz hmag hdv hA piv (le_refl z.mt)).1 (hs ▸ h0)
    rw [← hs] at hI
    rw [if_pos hn]
    exact hI.tbv r c hr hc (by omega) hn.1 hn.2
  · rw [if_neg hn]
    have key : ∀ K, K ≤ z.mt → (stepsA mag dv big z (startA z A piv tb0) K).st = 0 → (stepsA mag dv big z (startA z A piv tb0) K).tb r c = tb0 r c := by
      intro K
      induction K with
      | zero => intro _ _; rfl
      | succ K ih =>
        intro hK h1
        rw [stepsA_succ] at h1 ⊢
        have hp : (stepsA mag dv big z (startA z A piv tb0) K).st = 0 := by
          by_contra hne
          rw [st_keep hne] at h1
          exact hne h1
        rw [step_far hz hmag hdv (by omega) (full_herm hA) ((inv_all (big := big) hz hmag hdv hA piv (by omega)).1 hp) h1 (by omega)]
        exact ih (by omega) hp
    rw [hs]
    exact key _ (le_refl _) (hs ▸ h0)

end

section
variable {M : Type u} [DecidableEq M] {α : Type v} [Field α] [StarRing α] [DecidableEq α] {γ : Type w} [LinearOrder γ]
variable {E : IntCode α} {z : AC} {Z : AM M} {dv : α → α → α} {mag : α → γ} {big : α → Bool}

/-- The codes depend on the elements that exist. -/
theorem tcode_congr {M : Type u} {α : Type v} {valid : Foot M} {P : List (GTTask M α)} (hl : ∀ t ∈ tasks P, t.Local) (hin : ∀ t ∈ tasks P, t.Inside valid) (hC : CodeOK P)
    {s s' : Store M α} (h : ∀ a i j, valid a i j → s a i j = s' a i j) (i : Nat) : tcode P s i = tcode P s' i := by
  unfold tcode
  cases hP : P[i]? with
  | none => rfl
  | some t =>
    simp only
    have ht : t ∈ P := List.mem_of_getElem? hP
    have htt : t.task ∈ tasks P := List.mem_map.mpr ⟨t, ht, rfl⟩
    refine hC.loc t ht _ _ fun a k l hx => ?_
    refine texec_congr (valid := valid) _ (fun t ht => hl t (List.mem_of_mem_take ht)) (fun t ht => hin t (List.mem_of_mem_take ht)) s s' h a k l ?_
    exact hin t.task htt a k l hx

/-- The start of the factorization: the workspace is cleared, the pivots of the first tile set
(compute/zhetrf.c:176-178), and the diagonal of `A` is real. -/
structure AStart (env : M → MatEnv) (E : IntCode α) (z : AC) (Z : AM M) (s : Store (M × Nat × Nat) α) : Prop where
  w : ∀ x i j, x.1 = Z.W.id → evalid env x i j → s x i j = 0
  p : ∀ i, i < z.b → i < z.N → E.dec (Z.P.el s i 0) = i + 1
  d : ∀ i, i < z.N → star (Z.A.el s i i) = Z.A.el s i i

/-- The tiles on the diagonal and next to it: where the factorization puts the matrix `T`
(compute/pzhetrf_aasen.c:695-730). -/
def triT (b : Nat) (X : Nat → Nat → α) (r c : Nat) : α := if r / b ≤ c / b + 1 ∧ c / b ≤ r / b + 1 then X r c else 0

/-- The result, for the matrix `A0`; `T0` are the contents of the band matrix before. -/
structure ADone (E : IntCode α) (z : AC) (Z : AM M) (A0 T0 : Nat → Nat → α) (s : Store (M × Nat × Nat) α) : Prop where
  rng : ∀ i, i < z.N → i + 1 ≤ E.dec (Z.P.el s i 0) ∧ E.dec (Z.P.el s i 0) ≤ z.N
  fst : ∀ i, i < z.b → i < z.N → E.dec (Z.P.el s i 0) = i + 1
  eq : ∀ r c, r < z.N → c < z.N → A0 (perm (pv E Z.P s) 0 z.N r) (perm (pv E Z.P s) 0 z.N c) =
    ∑ g ∈ range z.N, ∑ h ∈ range z.N, Lf z.b (Z.A.el s) r g * triT z.b (Z.T.el s) g h * star (Lf z.b (Z.A.el s) c h)
  up : ∀ r g, r < z.N → g < z.N → r ≤ g → Lf z.b (Z.A.el s) r g = if r = g then 1 else 0
  herm : ∀ g h, g < z.N → h < z.N → star (triT z.b (Z.T.el s) g h) = triT z.b (Z.T.el s) h g
  band : ∀ g h, g < z.N → h < z.N → g + z.b < h ∨ h + z.b < g → triT z.b (Z.T.el s) g h = 0
  far : ∀ g h, g < z.N → h < z.N → bTile none z.b z.b z.b (g / z.b) (h / z.b) → ¬ (g / z.b ≤ h / z.b + 1 ∧ h / z.b ≤ g / z.b + 1) →
    Z.T.el s g h = T0 g h

theorem bTile_far {b m n : Nat} (hb : 0 < b) (h : ¬ bTile none b b b m n) : n + 1 < m ∨ m + 1 < n := by
  by_contra hc
  apply h
  have h1 : m * b ≤ (n + 1) * b := Nat.mul_le_mul_right _ (by omega)
  have h2 : n * b ≤ (m + 1) * b := Nat.mul_le_mul_right _ (by omega)
  rw [Nat.succ_mul] at h1 h2
  simp only [bTile]
  omega

open Classical in
theorem aasen_store {env : M → MatEnv} (hz : z.OK) (hbN : z.b ≤ z.N) (hZ : AMOK z Z) (hF : AFit env z Z) (hmag : IsMag mag) (hdv : IsDiv dv) {s : Store (M × Nat × Nat) α}
    (hS : AStart env E z Z s) (hc : ∀ i, tcode (pzhetrfAasen E mag dv big z Z) s i = 0) :
    ADone E z Z (herm (Z.A.el s)) (Z.T.el s) (texec (tasks (pzhetrfAasen E mag dv big z Z)) s) := by
  have hb := hz.b
  have hg := aasen_good (E := E) (mag := mag) (dv := dv) (big := big) hz hZ hF
  have hC := aasen_codeOK (E := E) (mag := mag) (dv := dv) (big := big) hz hZ
  obtain ⟨s0, h0⟩ : ∃ s0 : Store (M × Nat × Nat) α, s0 = fun x i j => if evalid env x i j then s x i j else 0 := ⟨_, rfl⟩
  have e0 : ∀ a i j, evalid env a i j → s a i j = s0 a i j := fun a i j h => by rw [h0]; exact (if_pos h).symm
  have e1 := texec_congr (valid := evalid env) (tasks (pzhetrfAasen E mag dv big z Z)) hg.loc hg.ins s s0 e0
  have hc0 : ∀ i, tcode (pzhetrfAasen E mag dv big z Z) s0 i = 0 := fun i => by
    rw [← tcode_congr hg.loc hg.ins hC e0]; exact hc i
  have hrun := prog_run hz hZ hmag hdv hc0
  -- elements that exist
  have vP : ∀ i, i < z.N → evalid env (Z.P.at' (i / z.b) 0) (i % z.b) 0 := fun i hi => by
    refine hF.fp.validOn trivial (by rw [hF.pm]; exact mod_lt_tdim hb hi) ?_
    rw [hF.pn, tdim_row]; omega
  have vA : ∀ r c, r < z.N → c < z.N → c / z.b ≤ r / z.b → evalid env (Z.A.at' (r / z.b) (c / z.b)) (r % z.b) (c % z.b) := fun r c hr hc h =>
    hF.fa.validOn h (by rw [hF.am]; exact mod_lt_tdim hb hr) (by rw [hF.an]; exact mod_lt_tdim hb hc)
  have vT : ∀ r c, r < z.N → c < z.N → bTile none z.b z.b z.b (r / z.b) (c / z.b) → evalid env (Z.T.at' (r / z.b) (c / z.b)) (r % z.b) (c % z.b) := fun r c hr hc h =>
    hF.ft.validOn h (by rw [hF.tm]; exact mod_lt_tdim hb hr) (by rw [hF.tn]; exact mod_lt_tdim hb hc)
  have elP : ∀ {u v : Store (M × Nat × Nat) α}, (∀ a i j, evalid env a i j → u a i j = v a i j) → ∀ i, i < z.N → Z.P.el u i 0 = Z.P.el v i 0 := by
    intro u v h i hi
    unfold TMat.el
    rw [hZ.p.mb, hZ.p.nb, Nat.zero_div, Nat.zero_mod]
    exact h _ _ _ (vP i hi)
  have elA : ∀ {u v : Store (M × Nat × Nat) α}, (∀ a i j, evalid env a i j → u a i j = v a i j) → ∀ r c, r < z.N → c < z.N → c / z.b ≤ r / z.b →
      Z.A.el u r c = Z.A.el v r c := by
    intro u v h r c hr hc hrc
    unfold TMat.el
    rw [hZ.a.mb, hZ.a.nb]
    exact h _ _ _ (vA r c hr hc hrc)
  have elT : ∀ {u v : Store (M × Nat × Nat) α}, (∀ a i j, evalid env a i j → u a i j = v a i j) → ∀ r c, r < z.N → c < z.N →
      bTile none z.b z.b z.b (r / z.b) (c / z.b) → Z.T.el u r c = Z.T.el v r c := by
    intro u v h r c hr hc hrc
    unfold TMat.el
    rw [hZ.t.mb, hZ.t.nb]
    exact h _ _ _ (vT r c hr hc hrc)
  -- the start
  have zW : ∀ q, s0 (Z.W.at' q 0) = fun _ _ => 0 := by
    intro q
    funext i j
    rw [h0]
    simp only
    by_cases h : evalid env (Z.W.at' q 0) i j
    · rw [if_pos h]; exact hS.w _ i j rfl h
    · rw [if_neg h]
  obtain ⟨A0, hA0⟩ : ∃ A0, A0 = Z.A.el s0 := ⟨_, rfl⟩
  obtain ⟨piv, hpiv⟩ : ∃ piv, piv = fun i => E.dec (Z.P.el s0 i 0) := ⟨_, rfl⟩
  have hstart : ab E z Z s0 = startA z A0 piv (Z.T.el s0) := by
    refine AS.ext' hA0.symm ?_ ?_ ?_ (zW 0) ?_ ?_ ?_ rfl
    · funext m n
      show (if m < z.mt ∧ (m = n ∨ m = n + 1) then s0 (Z.t z m n) else fun _ _ => 0) = _
      split
      · exact zW _
      · rfl
    · funext m
      show (if m < z.mt then s0 (Z.h m) else fun _ _ => 0) = _
      split
      · exact zW _
      · rfl
    · funext m
      show (if m < z.mt then s0 (Z.w3 z m) else fun _ _ => 0) = _
      split
      · exact zW _
      · rfl
    · funext m; exact zW _
    · rfl
    · funext i
      show E.dec (Z.P.el s0 i 0) = if i < z.b then i + 1 else piv i
      by_cases hi : i < z.b
      · rw [if_pos hi]
        rw [← elP e0 i (by omega)]; exact hS.p i hi (by omega)
      · rw [if_neg hi, hpiv]
  rw [hstart] at hrun
  have hdiag : ∀ i, i < z.N → star (A0 i i) = A0 i i := fun i hi => by
    rw [hA0, ← elA e0 i i hi hi (le_refl _)]; exact hS.d i hi
  obtain ⟨sf, hsf⟩ : ∃ sf, sf = stepsA mag dv big z (startA z A0 piv (Z.T.el s0)) z.mt := ⟨_, rfl⟩
  rw [← hsf] at hrun
  have hst : sf.st = 0 := by rw [← hrun]; rfl
  obtain ⟨q1, q2, q3, q4, q5, q6, -⟩ := (aasen_ok (big := big) hz hmag hdv hdiag piv hsf).2 hst
  have q7 : ∀ r c, r < z.N → c < z.N → sf.tb r c = if r / z.b ≤ c / z.b + 1 ∧ c / z.b ≤ r / z.b + 1 then Tf z.b sf.t r c else Z.T.el s0 r c := fun r c hr hc => aasen_band (big := big) hz hmag hdv hdiag piv hsf hst hr hc
  obtain ⟨s1, hs1⟩ : ∃ s1, s1 = texec (tasks (pzhetrfAasen E mag dv big z Z)) s := ⟨_, rfl⟩
  obtain ⟨s2, hs2⟩ : ∃ s2, s2 = texec (tasks (pzhetrfAasen E mag dv big z Z)) s0 := ⟨_, rfl⟩
  rw [← hs1, ← hs2] at e1
  rw [← hs2] at hrun
  rw [← hs1]
  have rP : ∀ i, i < z.N → E.dec (Z.P.el s1 i 0) = sf.piv i := fun i hi => by
    rw [elP e1 i hi, ← hrun]; rfl
  have rA : ∀ r c, r < z.N → c < z.N → c / z.b ≤ r / z.b → Z.A.el s1 r c = sf.a r c := fun r c hr hc h => by
    rw [elA e1 r c hr hc h, ← hrun]; rfl
  have nT : ∀ r c, r / z.b ≤ c / z.b + 1 ∧ c / z.b ≤ r / z.b + 1 → bTile none z.b z.b z.b (r / z.b) (c / z.b) := by
    intro r c h
    by_contra hB
    have := bTile_far hb hB
    omega
  have rT : ∀ r c, r < z.N → c < z.N → triT z.b (Z.T.el s1) r c = Tf z.b sf.t r c := by
    intro r c hr hc
    unfold triT
    by_cases h : r / z.b ≤ c / z.b + 1 ∧ c / z.b ≤ r / z.b + 1
    · have := q7 r c hr hc
      rw [if_pos h] at this
      rw [if_pos h, elT e1 r c hr hc (nT r c h), ← this, ← hrun]; rfl
    · rw [if_neg h]
      unfold Tf
      rw [if_neg (by omega), if_neg (by omega)]
  have rF : ∀ r c, r < z.N → c < z.N → bTile none z.b z.b z.b (r / z.b) (c / z.b) → ¬ (r / z.b ≤ c / z.b + 1 ∧ c / z.b ≤ r / z.b + 1) →
      Z.T.el s1 r c = Z.T.el s r c := by
    intro r c hr hc hB h
    have := q7 r c hr hc
    rw [if_neg h, ← hrun] at this
    rw [elT e1 r c hr hc hB, elT e0 r c hr hc hB]
    exact this
  have rL : ∀ r g, r < z.N → g < z.N → Lf z.b (Z.A.el s1) r g = Lf z.b sf.a r g := by
    intro r g hr hg
    unfold Lf
    by_cases h1 : g < z.b
    · rw [if_pos h1, if_pos h1]
    · rw [if_neg h1, if_neg h1]
      by_cases h2 : r < g / z.b * z.b
      · rw [if_pos h2, if_pos h2]
      · rw [if_neg h2, if_neg h2]
        refine rA r (g - z.b) hr (by omega) ?_
        refine le_trans (Nat.div_le_div_right (Nat.sub_le _ _)) ?_
        rw [Nat.le_div_iff_mul_le hb]; omega
  have hpl : ∀ i, i < z.N → sf.piv i - 1 < z.N := fun i hi => by have := q1 i hi; omega
  have ep : perm (pv E Z.P s1) 0 z.N = perm (fun i => sf.piv i - 1) 0 z.N := by
    refine perm_congr fun i _ hi => ?_
    unfold pv
    rw [rP i (by omega)]
  refine ⟨fun i hi => ?_, fun i hi hN => ?_, fun r c hr hc => ?_, fun r g hr hg h => ?_, fun g h hg hh => ?_, fun g h hg hh hor => ?_, rF⟩
  · rw [rP i hi]; exact q1 i hi
  · rw [rP i hN]; exact q2 i hi
  · rw [ep]
    have hr' : perm (fun i => sf.piv i - 1) 0 z.N r < z.N := perm_lt (le_refl _) hpl hr
    have hc' : perm (fun i => sf.piv i - 1) 0 z.N c < z.N := perm_lt (le_refl _) hpl hc
    have := q3 r c hr hc
    have eh : ∀ x y, x < z.N → y < z.N → herm (Z.A.el s) x y = herm A0 x y := by
      intro x y hx hy
      unfold herm
      by_cases h : y ≤ x
      · rw [if_pos h, if_pos h, hA0, elA e0 x y hx hy (Nat.div_le_div_right h)]
      · rw [if_neg h, if_neg h, hA0, elA e0 y x hy hx (Nat.div_le_div_right (by omega))]
    rw [eh _ _ hr' hc', this]
    refine sum_congr rfl fun g hg => sum_congr rfl fun h hh => ?_
    rw [mem_range] at hg hh
    rw [rL r g hr hg, rL c h hc hh, rT g h hg hh]
  · rw [rL r g hr hg]; exact q4 r g hr hg h
  · rw [rT g h hg hh, rT h g hh hg]; exact q5 g h hg hh
  · rw [rT g h hg hh]; exact q6 g h hg hh hor

/-- The result depends on the elements that exist. -/
theorem ADone.congr {env : M → MatEnv} (hz : z.OK) (hZ : AMOK z Z) (hF : AFit env z Z) {A0 T0 : Nat → Nat → α} {u v : Store (M × Nat × Nat) α}
    (h : ∀ a i j, evalid env a i j → u a i j = v a i j) (hD : ADone E z Z A0 T0 v) : ADone E z Z A0 T0 u := by
  have hb := hz.b
  have rP : ∀ i, i < z.N → Z.P.el u i 0 = Z.P.el v i 0 := by
    intro i hi
    unfold TMat.el
    rw [hZ.p.mb, hZ.p.nb, Nat.zero_div, Nat.zero_mod]
    refine h _ _ _ (hF.fp.validOn trivial (by rw [hF.pm]; exact mod_lt_tdim hb hi) ?_)
    rw [hF.pn, tdim_row]; omega
  have rL : ∀ r g, r < z.N → g < z.N → Lf z.b (Z.A.el u) r g = Lf z.b (Z.A.el v) r g := by
    intro r g hr hg
    unfold Lf
    by_cases h1 : g < z.b
    · rw [if_pos h1, if_pos h1]
    · rw [if_neg h1, if_neg h1]
      by_cases h2 : r < g / z.b * z.b
      · rw [if_pos h2, if_pos h2]
      · rw [if_neg h2, if_neg h2]
        unfold TMat.el
        rw [hZ.a.mb, hZ.a.nb]
        refine h _ _ _ (hF.fa.validOn ?_ (by rw [hF.am]; exact mod_lt_tdim hb hr) (by rw [hF.an]; exact mod_lt_tdim hb (by omega)))
        refine le_trans (Nat.div_le_div_right (Nat.sub_le _ _)) ?_
        rw [Nat.le_div_iff_mul_le hb]; omega
  have rB : ∀ r c, r < z.N → c < z.N → bTile none z.b z.b z.b (r / z.b) (c / z.b) → Z.T.el u r c = Z.T.el v r c := by
    intro r c hr hc hB
    unfold TMat.el
    rw [hZ.t.mb, hZ.t.nb]
    exact h _ _ _ (hF.ft.validOn hB (by rw [hF.tm]; exact mod_lt_tdim hb hr) (by rw [hF.tn]; exact mod_lt_tdim hb hc))
  have rT : ∀ r c, r < z.N → c < z.N → triT z.b (Z.T.el u) r c = triT z.b (Z.T.el v) r c := by
    intro r c hr hc
    unfold triT
    by_cases h : r / z.b ≤ c / z.b + 1 ∧ c / z.b ≤ r / z.b + 1
    · rw [if_pos h, if_pos h, rB r c hr hc]
      by_contra hB
      have := bTile_far hb hB
      omega
    · rw [if_neg h, if_neg h]
  have ep : perm (pv E Z.P u) 0 z.N = perm (pv E Z.P v) 0 z.N := by
    refine perm_congr fun i _ hi => ?_
    unfold pv
    rw [rP i (by omega)]
  refine ⟨fun i hi => ?_, fun i hi hN => ?_, fun r c hr hc => ?_, fun r g hr hg h => ?_, fun g h hg hh => ?_, fun g h hg hh hor => ?_, fun g h hg hh hB hn => ?_⟩
  · rw [rP i hi]; exact hD.rng i hi
  · rw [rP i hN]; exact hD.fst i hi hN
  · rw [ep, hD.eq r c hr hc]
    refine sum_congr rfl fun g hg => sum_congr rfl fun h hh => ?_
    rw [mem_range] at hg hh
    rw [rL r g hr hg, rL c h hc hh, rT g h hg hh]
  · rw [rL r g hr hg]; exact hD.up r g hr hg h
  · rw [rT g h hg hh, rT h g hh hg]; exact hD.herm g h hg hh
  · rw [rT g h hg hh]; exact hD.band g h hg hh hor
  · rw [rB g h hg hh hB]; exact hD.far g h hg hh hB hn

/-- A status is the index of a column behind the first tile. -/
theorem panelC_range (hz : z.OK) (hmag : IsMag mag) (hdv : IsDiv dv) {k : Nat} (hk : k + 1 < z.mt) (s : Store (M × Nat × Nat) α)
    (h : panelC mag dv big z Z k s ≠ 0) : ∃ q : Nat, panelC mag dv big z Z k s = (q : Int) ∧ z.b < q ∧ q ≤ z.N := by
  have hb := hz.b
  have hkN := hz.lt.mp hk
  have hmk : z.mv k = z.b := hz.mvb hk
  unfold panelC at h ⊢
  by_cases h0 : infov (pOut mag dv big z k (Z.A.el s)) = 0
  · rw [if_pos h0] at h; exact absurd rfl h
  rw [if_neg h0]
  have h1 := ((panel_ok (pCfg_ok hz hk) hmag hdv big _ rfl (s' := pOut mag dv big z k (Z.A.el s)) rfl).2 h0).1
  have hmn : (pCfg z k).mn ≤ z.N - (k + 1) * z.b := Nat.min_le_left _ _
  rw [Nat.succ_mul] at hkN hmn ⊢
  exact ⟨_, rfl, by omega, by omega⟩

/-- Every execution. -/
theorem aasen_exec {env : M → MatEnv} (hwf : ∀ a, (env a).WF) (hz : z.OK) (hbN : z.b ≤ z.N) (hZ : AMOK z Z) (hF : AFit env z Z) (hmag : IsMag mag) (hdv : IsDiv dv)
    {mem mem' : M × Nat → α} {st : Int} (hS : AStart env E z Z (view (eloc env) mem)) (hx : GExec env (pzhetrfAasen E mag dv big z Z) mem mem' st) :
    (st = 0 → ADone E z Z (herm (Z.A.el (view (eloc env) mem))) (Z.T.el (view (eloc env) mem)) (view (eloc env) mem')) ∧
    (st ≠ 0 → ∃ q : Nat, st = (q : Int) ∧ z.b < q ∧ q ≤ z.N) := by
  have hg := aasen_good (E := E) (mag := mag) (dv := dv) (big := big) hz hZ hF
  have hC := aasen_codeOK (E := E) (mag := mag) (dv := dv) (big := big) hz hZ
  constructor
  · rintro rfl
    obtain ⟨h1, h2⟩ := hx.successC hwf hg hC
    refine ADone.congr hz hZ hF (fun a i j hv => ?_) (aasen_store hz hbN hZ hF hmag hdv hS h2)
    exact (Exec.correct hwf hg.loc hg.ins hg.cov h1).1 a i j hv
  · intro h0
    obtain ⟨i, hi, h1, -⟩ := hx.failureC hwf hg hC h0
    unfold tcode at h1
    rw [List.getElem?_eq_getElem hi] at h1
    simp only at h1
    obtain ⟨⟨k, st', q⟩, hl, e⟩ := List.mem_map.mp (List.getElem_mem hi)
    rw [← e] at h1
    replace h1 : (if st' = 4 then panelC mag dv big z Z k else fun _ => 0) (texec ((tasks (pzhetrfAasen E mag dv big z Z)).take i) (view (eloc env) mem)) = st := h1
    by_cases h4 : st' = 4
    · rw [if_pos h4] at h1
      rw [← h1] at h0 ⊢
      exact panelC_range hz hmag hdv ((lab_facts hl).2.2.1 (by omega) (by omega)) _ h0
    · rw [if_neg h4] at h1
      exact absurd h1.symm h0

end

end Verif.Aasen

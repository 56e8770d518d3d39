/-
Properties of `plasma_pzhetrf_aasen`: C78, C79.
-/
import Verif.AasenProof
import Verif.Props.Hetrf

namespace Verif.Props

open Verif.Tile Verif.Layout Verif.LU Verif.Panel Verif.Heswp Verif.Aasen Finset

universe v w

section
variable {α : Type v} [Field α] [StarRing α] [DecidableEq α] {γ : Type w} [LinearOrder γ]
variable {z : AC} {dv : α → α → α} {mag : α → γ} {big : α → Bool}

/-- The factor `L` as it is stored on exit: unit diagonal, zero in the first tile column below the diagonal, and column `g` of the rest
in column `g - nb` of `A` (compute/pzhetrf_aasen.c:23, compute/zhetrs.c:291-302). -/
def aL (b : Nat) (a : Nat → Nat → α) (r g : Nat) : α := if r = g then 1 else if r < g ∨ g < b then 0 else a r (g - b)

/-- The matrix `T`, given by the band of width `nb`. -/
def aT (b : Nat) (tb : Nat → Nat → α) (r c : Nat) : α := if r ≤ c + b ∧ c ≤ r + b then tb r c else 0

/-- **C78** (partial). If the status is zero then `A` with rows and columns interchanged by `ipiv` is `L*T*L^H`, `T` is Hermitian, and
the pivots are in range; otherwise the status is an index.  `A` Hermitian is given by its lower triangle; the pivots of the first tile are
those `plasma_zhetrf` sets.  Missing: the tasks are executed in the order of the program, not in every order that the dependences allow. -/
theorem C78_aasen_partial (hz : z.OK) (hmag : IsMag mag) (hdv : IsDiv dv) {A : Nat → Nat → α} (hA : ∀ i, i < z.N → star (A i i) = A i i)
    (piv : Nat → Nat) {s : AS α} (hs : s = stepsA mag dv big z (startA z A piv) z.mt) :
    (s.st = 0 →
      (∀ r c, r < z.N → c < z.N → herm A (perm (fun i => s.piv i - 1) 0 z.N r) (perm (fun i => s.piv i - 1) 0 z.N c) =
        ∑ g ∈ range z.N, ∑ h ∈ range z.N, aL z.b s.a r g * aT z.b s.tb g h * star (aL z.b s.a c h)) ∧
      (∀ g h, g < z.N → h < z.N → star (aT z.b s.tb g h) = aT z.b s.tb h g) ∧
      (∀ i, i < z.N → i + 1 ≤ s.piv i ∧ s.piv i ≤ z.N) ∧ ∀ i, i < z.b → s.piv i = i + 1) ∧
    (s.st ≠ 0 → z.b < s.st ∧ s.st ≤ z.N) := by
  have hb := hz.b
  obtain ⟨h1, h2⟩ := aasen_ok (big := big) hz hmag hdv hA piv hs
  refine ⟨fun h0 => ?_, h1⟩
  obtain ⟨p1, p2, p3, p4, p5, p6, p7⟩ := h2 h0
  have eL : ∀ r g, r < z.N → g < z.N → Lf z.b s.a r g = aL z.b s.a r g := by
    intro r g hr hg
    unfold aL
    by_cases h : r ≤ g
    · rw [p4 r g hr hg h]
      by_cases e : r = g
      · rw [if_pos e, if_pos e]
      · rw [if_neg e, if_neg e, if_pos (by omega)]
    · rw [if_neg (by omega)]
      unfold Lf
      by_cases hgb : g < z.b
      · rw [if_pos hgb, if_neg (by omega), if_pos (by omega)]
      · have := Nat.div_mul_le_self g z.b
        rw [if_neg hgb, if_neg (by omega), if_neg (by omega)]
  have eT : ∀ g h, g < z.N → h < z.N → Tf z.b s.t g h = aT z.b s.tb g h := by
    intro g h hg hh
    unfold aT
    by_cases hc : g ≤ h + z.b ∧ h ≤ g + z.b
    · rw [if_pos hc, p7 g h hg hh hc.1 hc.2]
    · rw [if_neg hc, p6 g h hg hh (by omega)]
  refine ⟨fun r c hr hc => ?_, fun g h hg hh => ?_, p1, p2⟩
  · rw [p3 r c hr hc]
    refine sum_congr rfl fun g hg => sum_congr rfl fun h hh => ?_
    rw [mem_range] at hg hh
    rw [eL r g hr hg, eT g h hg hh, eL c h hc hh]
  · rw [← eT g h hg hh, ← eT h g hh hg]
    exact p5 g h hg hh

theorem panel_zero (hz : z.OK) (hmag : IsMag mag) (hdv : IsDiv dv) {k : Nat} (hk : k + 1 < z.mt) {s : AS α} (hs : s.st = 0)
    (h0 : ∀ r c, (k + 1) * z.b ≤ r → r < z.N → k * z.b ≤ c → c < (k + 1) * z.b → s.a r c = 0) :
    (panelS mag dv big z k s).st = (k + 1) * z.b + 1 := by
  have hb := hz.b
  have hkN := hz.lt.mp hk
  have hmk : z.mv k = z.b := hz.mvb hk
  have hlob : (k + 1) * z.b = k * z.b + z.b := Nat.succ_mul _ _
  have hpz : (pCfg z k).OK := by
    refine ⟨hb, hz.ib, ?_, ?_⟩
    · show 0 < min z.mpt (z.mt - (k + 1))
      have := hz.mpt; omega
    · show z.mv k ≤ z.b
      omega
  obtain ⟨o, ho⟩ : ∃ o, o = pOut mag dv big z k s.a := ⟨_, rfl⟩
  obtain ⟨i, hi⟩ : ∃ i : PS α, i = fun x i c => match x with
    | .a l => (s.a ((k + 1) * z.b + (l * z.b + i)) (k * z.b + c), 0)
    | _ => (0, 0) := ⟨_, rfl⟩
  have hpan := panel_ok hpz hmag hdv big i (by rw [hi]; rfl) (s' := o) (by rw [ho, hi]; rfl)
  have hnum : ∀ r c, r < z.N - (k + 1) * z.b → c < z.b → num (pCfg z k) i r c = 0 := by
    intro r c hr hc
    rw [hi]
    show s.a ((k + 1) * z.b + (r / z.b * z.b + r % z.b)) (k * z.b + c) = _
    rw [dm, h0 _ _ (by omega) (by omega) (by omega) (by omega)]
  have hM : (pCfg z k).M = z.N - (k + 1) * z.b := rfl
  have hmn : (pCfg z k).mn = min (z.N - (k + 1) * z.b) z.b := by
    show min (z.N - (k + 1) * z.b) (z.mv k) = _
    rw [hmk]
  have h1 : infov o ≠ 0 := by
    intro h
    obtain ⟨q1, q2, q3⟩ := hpan.1 h
    have hr : perm (fun i => pivv o i - 1) 0 (pCfg z k).mn 0 < (pCfg z k).M :=
      (perm_range (m := (pCfg z k).M) (fun i _ h2 => by have := q1 i (by omega); omega) (le_refl _) (by rw [hM]; omega)).2
    have e := q2 0 0 (by rw [hM]; omega) (by show 0 < z.mv k; omega)
    rw [hnum _ _ hr hb] at e
    have e2 : luE (num (pCfg z k) o) 0 0 = num (pCfg z k) o 0 0 := by simp [luE]
    rw [e2] at e
    exact q3 0 (by omega) e.symm
  obtain ⟨h2, q, Y, f1, f2, f3, f4, f5⟩ := hpan.2 h1
  have h3 : infov o = 1 := by
    by_contra hne
    have ht : 0 < infov o - 1 := by omega
    have hr : perm q 0 (infov o - 1) 0 < (pCfg z k).M :=
      (perm_range (m := (pCfg z k).M) (fun i _ h2 => f1 i (by omega)) (le_refl _) (by rw [hM]; omega)).2
    have e := f3 0 0 (by rw [hM]; omega) (by omega)
    rw [hnum _ _ hr hb] at e
    simp at e
    exact f4 0 ht e.symm
  unfold panelS
  rw [if_neg (by omega), ← ho]
  simp only
  rw [if_neg h1, h3]

/-- **C79, refuted.** If all elements below the first tile are zero in the first tile column then the status is `nb + 1`, whatever the rest
of the matrix is. -/
theorem C79_decoupled_refuted (hz : z.OK) (hmag : IsMag mag) (hdv : IsDiv dv) (hN : z.b < z.N) {A : Nat → Nat → α}
    (hA : ∀ i, i < z.N → star (A i i) = A i i) (h0 : ∀ r c, z.b ≤ r → r < z.N → c < z.b → A r c = 0) (piv : Nat → Nat)
    (tb : Nat → Nat → α := fun _ _ => 0) :
    (stepsA mag dv big z (startA z A piv tb) z.mt).st = z.b + 1 := by
  have hb := hz.b
  have hm1 : 0 + 1 < z.mt := by rw [hz.lt]; omega
  have hfirst : (stepA mag dv big z (startA z A piv tb) 0).st = z.b + 1 := by
    obtain ⟨d1, d2, d3, d4, -⟩ := diag_step hz hdv (by omega) (full_herm hA) (inv_start hz A piv (tb0 := tb))
      (s3 := diagH z 0 (diagT dv z 0 (hPre z 0 (startA z A piv tb)))) rfl
    obtain ⟨s3, h3⟩ : ∃ s3, s3 = diagH z 0 (diagT dv z 0 (hPre z 0 (startA z A piv tb))) := ⟨_, rfl⟩
    rw [← h3] at d1 d4
    have hc : colUpd z 0 s3 = s3 := rfl
    have hp := panel_zero (big := big) hz hmag hdv hm1 d4 (fun r c h1 h2 _ h4 => by
      rw [d1]; exact h0 r c (by omega) h2 (by omega))
    unfold stepA
    simp only [← h3, if_pos hm1, hc]
    generalize panelS mag dv big z 0 s3 = s4 at *
    have h4 : s4.st ≠ 0 := by omega
    unfold copyT symSwap offT rowSwap setT
    simp only [if_pos h4, if_neg (show ¬ (s4.st = 0 ∧ 0 < 0) by omega)]
    omega
  have key : ∀ K, (stepsA mag dv big z (startA z A piv tb) (K + 1)).st = z.b + 1 := by
    intro K
    induction K with
    | zero => rw [stepsA_succ]; exact hfirst
    | succ K ih => rw [stepsA_succ, st_keep (by omega), ih]
  obtain ⟨K, hK⟩ : ∃ K, z.mt = K + 1 := ⟨z.mt - 1, by omega⟩
  rw [hK]
  exact key K

/-- **C79, refuted.** The identity matrix of order `n > nb` is reported as singular, with status `nb + 1`.  For `n ≤ nb` the call is refused
(`C76_small_refuted`), so there is no order for which `plasma_zhetrf` or `plasma_zhesv` handles the identity matrix. -/
theorem C79_identity_refuted (hz : z.OK) (hmag : IsMag mag) (hdv : IsDiv dv) (hN : z.b < z.N) (piv : Nat → Nat) :
    (stepsA mag dv big z (startA z (fun r c => if r = c then 1 else 0) piv) z.mt).st = z.b + 1 := by
  refine C79_decoupled_refuted hz hmag hdv hN (fun i _ => by simp) (fun r c h1 _ h2 => ?_) piv
  exact if_neg (by omega)

/-- Order 2, tiles of size 1, `A(1,0) ≠ 0`: the factorization succeeds. -/
theorem aasen_two (hmag : IsMag mag) (hdv : IsDiv dv) {A : Nat → Nat → α} (hA : ∀ i, i < 2 → star (A i i) = A i i) (h10 : A 1 0 ≠ 0)
    (piv : Nat → Nat) {mpt mth : Nat} (hmpt : 0 < mpt) (tb : Nat → Nat → α := fun _ _ => 0) :
    (stepsA mag dv big ⟨2, 1, 1, mpt, mth⟩ (startA ⟨2, 1, 1, mpt, mth⟩ A piv tb) 2).st = 0 := by
  obtain ⟨z, hzd⟩ : ∃ z : AC, z = ⟨2, 1, 1, mpt, mth⟩ := ⟨_, rfl⟩
  rw [← hzd]
  have eN : z.N = 2 := by rw [hzd]
  have eb : z.b = 1 := by rw [hzd]
  have hz : z.OK := by rw [hzd]; exact ⟨Nat.one_pos, Nat.one_pos, hmpt⟩
  have hmt : z.mt = 2 := by unfold AC.mt; rw [eN, eb]; rfl
  rw [← eN] at hA
  have hstart := inv_start hz A piv (tb0 := tb)
  have hfirst : (stepA mag dv big z (startA z A piv tb) 0).st = 0 := by
    obtain ⟨d1, d2, d3, d4, -⟩ := diag_step hz hdv (by omega) (full_herm hA) hstart
      (s3 := diagH z 0 (diagT dv z 0 (hPre z 0 (startA z A piv tb)))) rfl
    obtain ⟨s3, h3⟩ : ∃ s3, s3 = diagH z 0 (diagT dv z 0 (hPre z 0 (startA z A piv tb))) := ⟨_, rfl⟩
    rw [← h3] at d1 d4
    have hm1 : 0 + 1 < z.mt := by omega
    have hmk : z.mv 0 = 1 := by rw [hz.mvb hm1, eb]
    have hp : (panelS mag dv big z 0 s3).st = 0 := by
      have hpz : (pCfg z 0).OK := by
        refine ⟨hz.b, hz.ib, ?_, ?_⟩
        · show 0 < min z.mpt (z.mt - (0 + 1))
          have := hz.mpt; omega
        · show z.mv 0 ≤ z.b
          omega
      obtain ⟨o, ho⟩ : ∃ o, o = pOut mag dv big z 0 s3.a := ⟨_, rfl⟩
      obtain ⟨i, hi⟩ : ∃ i : PS α, i = fun x i c => match x with
        | .a l => (s3.a ((0 + 1) * z.b + (l * z.b + i)) (0 * z.b + c), 0)
        | _ => (0, 0) := ⟨_, rfl⟩
      have hpan := panel_ok hpz hmag hdv big i (by rw [hi]; rfl) (s' := o) (by rw [ho, hi]; rfl)
      have hM : (pCfg z 0).M = 1 := by show z.N - (0 + 1) * z.b = 1; rw [eN, eb]
      have hmn : (pCfg z 0).mn = 1 := by
        show min (pCfg z 0).M (z.mv 0) = 1
        rw [hM, hmk]; rfl
      have hnum : num (pCfg z 0) i 0 0 = A 1 0 := by
        rw [hi]
        show s3.a ((0 + 1) * z.b + (0 / z.b * z.b + 0 % z.b)) (0 * z.b + 0) = _
        rw [d1, eb]
        rfl
      have hinfo : infov o = 0 := by
        by_contra h
        obtain ⟨h2, q, Y, f1, f2, f3, f4, f5⟩ := hpan.2 h
        rw [hmn] at h2
        have e1 : infov o - 1 = 0 := by omega
        rw [e1] at f3 f5
        have e := f3 0 0 (by omega) (by omega)
        have e2 := f5 0 (le_refl _) (by omega)
        simp [perm] at e
        rw [hnum, e2] at e
        exact h10 e
      unfold panelS
      rw [if_neg (by omega), ← ho]
      simp only
      rw [if_pos hinfo]
    unfold stepA
    simp only [← h3, if_pos hm1, show colUpd z 0 s3 = s3 from rfl]
    generalize panelS mag dv big z 0 s3 = s4 at *
    unfold copyT symSwap offT rowSwap setT
    simp [hp]
  have i1 := (inv_step (big := big) hz hmag hdv (by omega) (full_herm hA) hstart (k := 0) rfl).1 hfirst
  have i2 := (inv_step (big := big) hz hmag hdv (by omega) (full_herm hA) i1 (k := 1) rfl).2
  rw [stepsA_succ, stepsA_succ]
  by_contra h
  have := i2 h
  rw [eb, eN] at this
  omega

end

/-- Order 5, tiles of size 2: the hypotheses on the sizes hold and there is more than one step. -/
example : (⟨5, 2, 1, 3, 4⟩ : AC).OK ∧ (⟨5, 2, 1, 3, 4⟩ : AC).mt = 3 ∧ (⟨5, 2, 1, 3, 4⟩ : AC).b < (⟨5, 2, 1, 3, 4⟩ : AC).N :=
  ⟨⟨by decide, by decide, by decide⟩, by decide +kernel, by decide⟩

/-- The matrix with rows (0,3), (3,1) and two tiles: the status is zero. -/
example : (stepsA (fun x : ℚ => |x|) (fun x y => x / y) (fun _ => false) ⟨2, 1, 1, 3, 4⟩ (startA ⟨2, 1, 1, 3, 4⟩
    (fun r c => if r = c then (r : ℚ) else 3) (fun _ => 0)) (⟨2, 1, 1, 3, 4⟩ : AC).mt).st = 0 :=
  aasen_two ⟨fun x hx => by simpa using hx⟩ ⟨fun x y _ => rfl⟩ (fun i _ => by simp) (by norm_num) _ (by decide)

end Verif.Props

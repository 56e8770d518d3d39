/-
Correctness of the band LU factorization `pzgbtrf` at tile level.
-/
import Verif.Gbtrf

namespace Verif.Tile

open Verif.Layout Verif.LU Verif.Panel Finset

set_option linter.unusedSectionVars false

universe u v w

/-- Rows of zeros at the bottom do not change where elimination stops. -/
theorem FailAt.grow {α : Type v} [Field α] {m m' t : Nat} {A : Nat → Nat → α} (h : FailAt m' A t) (hm : m' ≤ m)
    (hz : ∀ r c, m' ≤ r → r < m → c ≤ t → A r c = 0) : FailAt m A t := by
  obtain ⟨q, Y, h1, h2, h3, h4, h5⟩ := h
  refine ⟨q, fun r c => if r < m' then Y r c else 0, fun i hi => ⟨(h1 i hi).1, by have := (h1 i hi).2; omega⟩, by omega,
    ?_, ?_, ?_⟩
  · intro r c hr hc
    have h6 := fun (l : Nat) (hl : l < t) => show (if l < m' then Y l c else 0) = Y l c from if_pos (by omega)
    by_cases hrm : r < m'
    · rw [h3 r c hrm hc]
      dsimp only
      simp only [if_pos hrm]
      congr 1
      refine sum_congr rfl fun l hl => ?_
      rw [mem_range] at hl
      rw [h6 l (by omega)]
    · rw [perm_ge (m := m') (fun i _ a2 => h1 i (by omega)) (by omega) (by omega), hz r c (by omega) hr (by omega)]
      simp only [if_neg hrm, zero_mul, sum_const_zero, ite_self, add_zero]
  · intro c hc
    dsimp only
    rw [if_pos (by omega)]; exact h4 c hc
  · intro r a1 a2
    dsimp only
    split
    · exact h5 r a1 (by assumption)
    · rfl

theorem _root_.Verif.LU.FailAt.congrA {α : Type v} [Field α] {m t : Nat} {A B : Nat → Nat → α} (h : FailAt m A t)
    (hAB : ∀ r c, r < m → c ≤ t → A r c = B r c) : FailAt m B t := by
  obtain ⟨q, Y, h1, h2, h3, h4, h5⟩ := h
  refine ⟨q, Y, h1, h2, ?_, h4, h5⟩
  intro r c hr hc
  rw [← hAB _ c (perm_range (fun i _ a2 => h1 i (by omega)) (Nat.zero_le _) hr).2 (by omega)]
  exact h3 r c hr hc

section
variable {M : Type u} [DecidableEq M] {α : Type v} [Field α] [StarRing α] [DecidableEq α] {γ : Type w}
  [LinearOrder γ] {b N kl ku : Nat} {E : IntCode α} {A P : TMat M} {mag : α → γ} {dv : α → α → α} {big : α → Bool}
  {ib mpt : Nat}

/-- The matrix held by the tiles of the band. -/
def gbX (b kl ku : Nat) (A : TMat M) (s : Store (M × Nat × Nat) α) (r c : Nat) : α :=
  if bTile none b kl ku (r / b) (c / b) then A.el s r c else 0

/-- `A0` is a band matrix. -/
def Banded (kl ku : Nat) (A0 : Nat → Nat → α) : Prop :=
  ∀ r c, c + kl < r ∨ r + ku < c → A0 r c = 0

/-- State after `k` steps. -/
structure GbInv (E : IntCode α) (b N kl ku : Nat) (A P : TMat M) (X0 : Nat → Nat → α) (k : Nat)
    (s : Store (M × Nat × Nat) α) : Prop where
  rng : PvOK E P N (min N (k * b)) s
  inv : LUInv N N X0 (lazyM (pv E P s) (lzi b) (min N (k * b)) (gbX b kl ku A s))
    (perm (pv E P s) 0 (min N (k * b))) (min N (k * b))
  dia : ∀ c, c < min N (k * b) → gbX b kl ku A s c c ≠ 0
  -- rows not reached yet
  far : ∀ r c, k * b + kl ≤ r → r < N → k * b ≤ c → c < N → gbX b kl ku A s r c = X0 r c
  -- rows reached: fill-in
  fill : b < N → ∀ r c, k * b ≤ r → r < N → r < k * b + kl → k * b + kl + ku ≤ c → c < N → gbX b kl ku A s r c = 0
  -- columns of the lower factor
  low : ∀ r c, c < k * b → c < N → r < N → c / b * b + b + kl ≤ r → gbX b kl ku A s r c = 0

theorem GbInv.init {X0 : Nat → Nat → α} {s : Store (M × Nat × Nat) α} (hX0 : Banded kl ku X0 ∨ N ≤ b)
    (h : ∀ r c, r < N → c < N → gbX b kl ku A s r c = X0 r c) : GbInv E b N kl ku A P X0 0 s := by
  have e : min N (0 * b) = 0 := by simp
  refine ⟨?_, ?_, ?_, ?_, ?_, ?_⟩
  · rw [e]; intro i hi; omega
  · rw [e]
    have : lazyM (pv E P s) (lzi b) 0 (gbX b kl ku A s) = gbX b kl ku A s := by
      funext r c; unfold lazyM; rw [if_neg (by omega)]
    rw [this]
    exact (LUInv.init N N _).congrA fun r c a1 a2 => h r c a1 a2
  · rw [e]; intro c hc; omega
  · intro r c _ a1 _ a2; exact h r c a1 a2
  · intro hN r c _ a1 a2 a3 a4
    rw [h r c a1 a4]; exact (hX0.resolve_right (by omega)) r c (by omega)
  · intro r c a1; omega

/-- Mask of a column. -/
theorem bTile_col (hb : 0 < b) {k r c : Nat} (h1 : k * b ≤ c) (h2 : c < k * b + b) (hr : k * b ≤ r)
    {d : Nat} (hd : d = 1 + (kl + b - 1) / b) :
    bTile none b kl ku (r / b) (c / b) ↔ r < (k + d) * b := by
  have hc : c / b = k := by rw [Nat.div_eq_iff hb]; omega
  have hkr : k ≤ r / b := (Nat.le_div_iff_mul_le hb).mpr hr
  have hkr' : k * b ≤ r / b * b := Nat.mul_le_mul_right _ hkr
  have e1 := BPar.lt_bkt (k := kl) (d := r / b - k) hb
  rw [Nat.sub_mul] at e1
  rw [← Nat.div_lt_iff_lt_mul hb]
  simp only [bTile]
  rw [hc, hd]
  constructor
  · intro ⟨_, h⟩
    have := e1.mpr (by omega)
    omega
  · intro h
    have := e1.mp (by omega)
    exact ⟨by omega, by omega⟩

/-- Tiles of an update are in the band. -/
theorem bTile_upd (hb : 0 < b) {k r c : Nat} (hr : k * b ≤ r) (hr2 : r < (k + (1 + (kl + b - 1) / b)) * b)
    (hc : k * b ≤ c) (hc2 : c < (k + (1 + (ku + kl + b - 1) / b)) * b) :
    bTile none b kl ku (r / b) (c / b) := by
  have hkr : k ≤ r / b := (Nat.le_div_iff_mul_le hb).mpr hr
  have hkc : k ≤ c / b := (Nat.le_div_iff_mul_le hb).mpr hc
  have hkr' : k * b ≤ r / b * b := Nat.mul_le_mul_right _ hkr
  have hkc' : k * b ≤ c / b * b := Nat.mul_le_mul_right _ hkc
  have e1 := BPar.lt_bkt (k := kl) (d := r / b - k) hb
  have e2 := BPar.lt_bkt (k := ku + kl) (d := c / b - k) hb
  rw [Nat.sub_mul] at e1 e2
  rw [← Nat.div_lt_iff_lt_mul hb] at hr2 hc2
  have f1 := e1.mp (by omega)
  have f2 := e2.mp (by omega)
  exact ⟨by omega, by omega⟩

/-- **One step** of the factorization. -/
theorem gb_step (hdv : IsDiv dv) (hmag : IsMag mag) (h : GbOK b N kl ku A P ib mpt) {k : Nat}
    (hk : k < A.d.mt) (rg : Bool) {X0 : Nat → Nat → α} (hX0 : Banded kl ku X0 ∨ N ≤ b) {s : Store (M × Nat × Nat) α}
    (hI : GbInv E b N kl ku A P X0 k s) :
    (infov (gbOut mag dv big ib mpt A k s) = 0 →
      GbInv E b N kl ku A P X0 (k + 1) (texec (tasks (gbStep rg E mag dv big ib mpt A P k)) s)) ∧
    (infov (gbOut mag dv big ib mpt A k s) ≠ 0 →
      k * b + (infov (gbOut mag dv big ib mpt A k s) - 1) < N ∧
      FailAt N X0 (k * b + (infov (gbOut mag dv big ib mpt A k s) - 1))) := by
  have hb := h.a.pos
  have hkm := h.lt.mp hk
  have hnv := h.nv hk
  have hmak := h.mak hk
  have hklt := h.kltb k
  have hkut := h.kutb k
  have e1 : (k + 1) * b = k * b + b := by ring
  obtain ⟨o1, o2⟩ := panel_ok (h.cfg hk) hmag hdv big (toPS A k s) rfl
    (s' := gbOut mag dv big ib mpt A k s) rfl
  have hzM : (gbCfg ib mpt A k).M = gbMak A k := rfl
  have hzN : (gbCfg ib mpt A k).N = A.d.nview k := rfl
  have hmn : (gbCfg ib mpt A k).mn = A.d.nview k := by
    unfold Cfg.mn; rw [hzM, hzN]; omega
  have hK : min N (k * b) = k * b := by omega
  obtain ⟨hrng, hinv, hdia, hfar, hfill, hlow⟩ := hI
  rw [hK] at hrng hinv hdia
  -- elements in the panel and below
  have hmask : ∀ (s : Store (M × Nat × Nat) α) r c, k * b ≤ r → r < (k + A.d.klt) * b → k * b ≤ c →
      c < (k + A.d.kut) * b → gbX b kl ku A s r c = A.el s r c := by
    intro s r c a1 a2 a3 a4
    exact if_pos (bTile_upd hb a1 (by rw [← h.klt]; exact a2) a3 (by rw [← h.kut]; exact a4))
  have hoff : ∀ (s : Store (M × Nat × Nat) α) r c, (k + A.d.klt) * b ≤ r → k * b ≤ c → c < k * b + b →
      gbX b kl ku A s r c = 0 := by
    intro s r c a1 a2 a3
    refine if_neg fun hh => ?_
    rw [bTile_col hb a2 a3 (by omega) h.klt] at hh
    omega
  have hzero : ∀ r c, k * b + gbMak A k ≤ r → r < N → k * b ≤ c → c < k * b + A.d.nview k →
      gbX b kl ku A s r c = 0 := by
    intro r c a1 a2 a3 a4
    rw [hfar r c (by omega) a2 a3 (by omega)]
    exact (hX0.resolve_right (by omega)) r c (by omega)
  have hright0 : ∀ r c, k * b ≤ r → r < k * b + gbMak A k → k * b + b + kl + ku ≤ c → c < N →
      gbX b kl ku A s r c = 0 := by
    intro r c a1 a2 a3 a4
    rcases Nat.lt_or_ge r (k * b + kl) with a | a
    · exact hfill (by omega) r c a1 (by omega) a (by omega) a4
    · rw [hfar r c a (by omega) (by omega) a4]
      exact (hX0.resolve_right (by omega)) r c (by omega)
  generalize hT : (k + A.d.klt) * b = T at *
  generalize hU : (k + A.d.kut) * b = U at *
  refine ⟨?_, ?_⟩
  · intro hi
    obtain ⟨hp, hL, hd⟩ := o1 hi
    rw [hmn] at hp hd
    rw [gbStep_tasks]
    obtain ⟨p1, p2, p3, p4, p5⟩ := gbPanel_eff (E := E) (mag := mag) (dv := dv) (big := big) h (k := k)
      (gbPanelDeps rg A P k) s
    generalize (gbPanelT (gbPanelDeps rg A P k) E mag dv big ib mpt A P k).run s = s1 at p1 p2 p3 p4 p5 ⊢
    rw [show min (gbMak A k) (A.d.nview k) = A.d.nview k by omega] at p3 p4
    obtain ⟨u1, u2, u3⟩ := gbUpds_eff (E := E) hdv h hk rg s1
      (p := fun i => k * b + (E.dec (P.el s1 i 0) - 1))
      (fun hlast i a1 a2 => by
        have := h.lt.mp hlast
        have hpi := hp (i - k * b) (by omega)
        rw [hzM] at hpi
        rw [p3 i a1 (by omega)]
        exact ⟨rfl, by omega, by omega⟩) (H := min A.d.nt (k + A.d.kut)) (by rw [h.nt]; have := h.kut_pos; omega)
      (by rw [h.nt]; omega) (by omega)
    have hPs : ∀ i, P.el (texec ((span (k + 1) (min A.d.nt (k + A.d.kut))).map fun n => gbUpdT rg E dv A P k n) s1) i 0
        = P.el s1 i 0 := fun i => by unfold TMat.el; rw [u3]; exact h.ne.symm
    generalize texec ((span (k + 1) (min A.d.nt (k + A.d.kut))).map fun n => gbUpdT rg E dv A P k n) s1 = s2
      at u1 u2 u3 hPs ⊢
    obtain ⟨q1, q2, q3, q4⟩ := gbAdj_eff (E := E) h (k := k) s2
    generalize (gbAdjT E A P k).run s2 = s3 at q1 q2 q3 q4 ⊢
    rw [show min (gbMak A k) (A.d.nview k) = A.d.nview k by omega] at q2 q3
    have hHb : min N (min A.d.nt (k + A.d.kut) * b) = min N U := by
      have : N ≤ A.d.nt * b := Nat.le_of_not_lt fun hlt => by
        have := h.lt.mpr hlt; rw [h.nt] at this; omega
      rw [← hU]
      rcases Nat.le_total A.d.nt (k + A.d.kut) with a | a
      · rw [Nat.min_eq_left a]
        have : A.d.nt * b ≤ (k + A.d.kut) * b := Nat.mul_le_mul_right _ a
        omega
      · rw [Nat.min_eq_right a]
    rw [hHb, hT] at u1 u2
    have hK' : min N ((k + 1) * b) = k * b + A.d.nview k := by rw [e1, hnv]; omega
    -- pivots after the step
    have hpl : ∀ i, i < k * b → pv E P s3 i = pv E P s i := fun i hi => by
      unfold pv; rw [q3 i (by omega), hPs, p4 i (by omega)]
    have hph0 : ∀ i, i < A.d.nview k → E.dec (P.el s1 (k * b + i) 0) = pivv (gbOut mag dv big ib mpt A k s) i :=
      fun i hi => by rw [p3 _ (by omega) (by omega), Nat.add_sub_cancel_left]
    have hph1 : ∀ i, i < A.d.nview k → E.dec (P.el s3 (k * b + i) 0) =
        pivv (gbOut mag dv big ib mpt A k s) i + k * b := fun i hi => by
      rw [q2 _ (by omega) (by omega), hPs, hph0 i hi]
    have hph : ∀ i, i < A.d.nview k →
        pv E P s3 (k * b + i) = k * b + (pivv (gbOut mag dv big ib mpt A k s) i - 1) := fun i hi => by
      have := (hp i hi).1
      unfold pv
      rw [hph1 i hi]
      omega
    have hr3 : ∀ i, i < k * b + A.d.nview k → 1 ≤ E.dec (P.el s3 i 0) ∧ i ≤ pv E P s3 i ∧ pv E P s3 i < N ∧
        (k * b ≤ i → pv E P s3 i < k * b + gbMak A k) := by
      intro i hi
      rcases Nat.lt_or_ge i (k * b) with a | a
      · have := hrng i a
        rw [hpl i a, q3 i (by omega), hPs, p4 i (by omega)]
        exact ⟨this.1, this.2.1, this.2.2, fun a' => by omega⟩
      · obtain ⟨j, rfl⟩ := Nat.exists_eq_add_of_le a
        have hj : j < A.d.nview k := by omega
        have := hp j hj
        rw [hph j hj, hph1 j hj]
        rw [hzM] at this
        omega
    have hun : ∀ r c, ¬ (k * b ≤ r ∧ r < k * b + gbMak A k ∧ k * b ≤ c ∧ c < k * b + A.d.nview k) →
        ¬ (k * b ≤ r ∧ r < N ∧ r < T ∧ k * b + b ≤ c ∧ c < min N U) → gbX b kl ku A s3 r c = gbX b kl ku A s r c := by
      intro r c a1 a2
      unfold gbX
      rw [q1, u2 r c a2, p2 r c a1]
    have hX : ∀ r c, k * b ≤ r → r < k * b + gbMak A k → k * b ≤ c → c < k * b + A.d.nview k →
        gbX b kl ku A s3 r c = num (gbCfg ib mpt A k) (gbOut mag dv big ib mpt A k s) (r - k * b) (c - k * b) :=
      fun r c a1 a2 a3 a4 => by
        rw [hmask s3 r c a1 (by omega) a3 (by omega), q1, u2 r c (by omega), p1 r c a1 a2 a3 a4]
    have hX0' : ∀ r c, k * b + gbMak A k ≤ r → r < N → k * b ≤ c → c < k * b + A.d.nview k →
        gbX b kl ku A s3 r c = 0 := fun r c a1 a2 a3 a4 => by
      rw [hun r c (by omega) (by omega)]; exact hzero r c a1 a2 a3 a4
    have hpge : ∀ r, k * b + gbMak A k ≤ r → perm (pv E P s3) (k * b) (A.d.nview k) r = r := fun r hr =>
      perm_ge (m := k * b + gbMak A k) (fun i a1 a2 => ⟨(hr3 i a2).2.1, (hr3 i a2).2.2.2 a1⟩) (by omega) hr
    have hprg : ∀ r, k * b ≤ r → r < k * b + gbMak A k → k * b ≤ perm (pv E P s3) (k * b) (A.d.nview k) r ∧
        perm (pv E P s3) (k * b) (A.d.nview k) r < k * b + gbMak A k := fun r hr hr2 =>
      perm_range (fun i a1 a2 => ⟨(hr3 i a2).2.1, (hr3 i a2).2.2.2 a1⟩) hr hr2
    have hright : ∀ r c, k * b ≤ r → r < N → k * b + A.d.nview k ≤ c → c < N →
        gbX b kl ku A s (perm (pv E P s3) (k * b) (A.d.nview k) r) c =
        ∑ l ∈ Ico (k * b) (min r (k * b + A.d.nview k)), gbX b kl ku A s3 r l * gbX b kl ku A s3 l c +
          gbX b kl ku A s3 r c := by
      intro r c a1 a2 a3 a4
      have hnb : A.d.nview k = b := by omega
      have hpanel : ∀ l, k * b + gbMak A k ≤ r → l ∈ Ico (k * b) (min r (k * b + A.d.nview k)) →
          gbX b kl ku A s3 r l * gbX b kl ku A s3 l c = 0 := by
        intro l hr hl
        rw [mem_Ico] at hl
        rw [hX0' r l hr a2 hl.1 (by omega), zero_mul]
      rcases Nat.lt_or_ge c U with hc | hc
      · rcases Nat.lt_or_ge r T with hr | hr
        · have hρ : k * b ≤ perm (pv E P s3) (k * b) (A.d.nview k) r ∧ perm (pv E P s3) (k * b) (A.d.nview k) r < T := by
            rcases Nat.lt_or_ge r (k * b + gbMak A k) with h5 | h5
            · have := hprg r a1 h5; omega
            · rw [hpge r h5]; omega
          have := u1 r c a1 a2 hr (by omega) (by omega)
          rw [perm_congr (q := pv E P s3) (fun i b1 b2 => by
            obtain ⟨j, rfl⟩ := Nat.exists_eq_add_of_le b1
            rw [hph j (by omega), hph0 j (by omega)])] at this
          rw [hmask s _ c hρ.1 hρ.2 (by omega) hc, hnb, ← p2 _ c (by omega), this]
          rw [hmask s3 r c a1 hr (by omega) hc, q1]
          congr 1
          refine sum_congr rfl fun l hl => ?_
          rw [mem_Ico] at hl
          rw [hmask s3 r l a1 hr hl.1 (by omega), hmask s3 l c hl.1 (by omega) (by omega) hc, q1, q1, u2 r l (by omega)]
        · rw [hpge r (by omega), sum_eq_zero fun l hl => hpanel l (by omega) hl, zero_add, hun r c (by omega) (by omega)]
      · rcases Nat.lt_or_ge r (k * b + gbMak A k) with hr | hr
        · have hρ := hprg r a1 hr
          rw [hright0 _ c hρ.1 hρ.2 (by omega) a4, hun r c (by omega) (by omega), hright0 r c a1 hr (by omega) a4,
            add_zero, sum_eq_zero]
          intro l hl
          rw [mem_Ico] at hl
          rw [hun l c (by omega) (by omega), hright0 l c hl.1 (by omega) (by omega) a4, mul_zero]
        · rw [hpge r (by omega), sum_eq_zero fun l hl => hpanel l (by omega) hl, zero_add, hun r c (by omega) (by omega)]
    have hkeep : ∀ r c, k * b + gbMak A k ≤ r → r < N → k * b ≤ c → c < N →
        gbX b kl ku A s3 r c = gbX b kl ku A s r c := by
      intro r c a1 a2 a3 a4
      rcases Nat.lt_or_ge c (k * b + A.d.nview k) with hc | hc
      · rw [hX0' r c a1 a2 a3 hc, hzero r c a1 a2 a3 hc]
      · have := hright r c (by omega) a2 hc a4
        rw [hpge r a1, sum_eq_zero, zero_add] at this
        · exact this.symm
        · intro l hl
          rw [mem_Ico] at hl
          rw [hX0' r l a1 a2 hl.1 (by omega), zero_mul]
    have hfill' : ∀ r c, k * b ≤ r → r < k * b + gbMak A k → k * b + b + kl + ku ≤ c → c < N →
        gbX b kl ku A s3 r c = 0 := by
      intro r
      induction r using Nat.strong_induction_on with
      | _ r ih =>
        intro c a1 a2 a3 a4
        have := hright r c a1 (by omega) (by omega) a4
        have hρ := hprg r a1 a2
        rw [hright0 _ c hρ.1 hρ.2 a3 a4, sum_eq_zero, zero_add] at this
        · exact this.symm
        · intro l hl
          rw [mem_Ico] at hl
          rw [ih l (by omega) c hl.1 (by omega) a3 a4, mul_zero]
    refine ⟨?_, ?_, ?_, ?_, ?_, ?_⟩
    · rw [hK']
      intro i hi
      exact ⟨(hr3 i hi).1, (hr3 i hi).2.1, (hr3 i hi).2.2.1⟩
    · rw [hK']
      refine LUInv.lazy_step (K := k * b) (w := A.d.nview k) (X := gbX b kl ku A s) ?_ (by omega) (by omega) (by omega)
        (fun i hi => ⟨(hr3 i hi).2.1, (hr3 i hi).2.2.1⟩) (fun c hc => lzi_le hb hc)
        (fun c a1 a2 => le_trans (by omega) (le_lzi hb a1)) ?_ ?_ ?_ ?_
      · rw [lazyM_congr (p' := pv E P s) hpl, perm_congr (q := pv E P s) (fun i _ hi => hpl i (by omega))]
        exact hinv
      · intro r c a1 a2; exact hun r c (by omega) (by omega)
      · intro r c a1 a2 a3; exact hun r c (by omega) (by omega)
      · intro r c a1 a2 a3 a4
        rw [Nat.add_sub_cancel_left]
        rcases Nat.lt_or_ge r (k * b + gbMak A k) with hr | hr
        · have hρ := hprg r a1 hr
          rw [hmask s _ c hρ.1 (by omega) a3 (by omega)]
          obtain ⟨i, rfl⟩ := Nat.exists_eq_add_of_le a1
          obtain ⟨j, rfl⟩ := Nat.exists_eq_add_of_le a3
          rw [perm_shift (q := fun i => pivv (gbOut mag dv big ib mpt A k s) i - 1) hph]
          have := hL i j (by rw [hzM]; omega) (by rw [hzN]; omega)
          rw [num_toPS' h, hmn] at this
          rw [this, luE, sum_Ico_eq_sum_range]
          rw [show min (k * b + i) (k * b + j + 1) - k * b = min i (j + 1) by omega]
          congr 1
          · refine sum_congr rfl fun l hl => ?_
            rw [mem_range] at hl
            rw [hX _ _ (by omega) (by omega) (by omega) (by omega),
              hX _ _ (by omega) (by omega) (by omega) (by omega)]
            simp only [Nat.add_sub_cancel_left]
          · rw [hX _ _ (by omega) (by omega) (by omega) (by omega)]
            simp only [Nat.add_sub_cancel_left, Nat.add_le_add_iff_left]
        · rw [hpge r hr, hzero r c hr a2 a3 a4, if_neg (by omega), add_zero, sum_eq_zero]
          intro l hl
          rw [mem_Ico] at hl
          rw [hX0' r l hr a2 hl.1 (by omega), zero_mul]
      · intro r c a1 a2 a3 a4
        rw [Nat.add_sub_cancel_left]
        exact hright r c a1 a2 a3 a4
    · rw [hK']
      intro c hc
      rcases Nat.lt_or_ge c (k * b) with a | a
      · rw [hun c c (by omega) (by omega)]; exact hdia c a
      · rw [hX c c a (by omega) a (by omega)]
        exact hd _ (by omega)
    · rw [e1]
      intro r c a1 a2 a3 a4
      rw [hkeep r c (by omega) a2 (by omega) a4, hfar r c (by omega) a2 (by omega) a4]
    · rw [e1]
      intro _ r c a1 a2 a3 a4 a5
      exact hfill' r c (by omega) (by omega) (by omega) a5
    · rw [e1]
      intro r c a1 a2 a3 a4
      rcases Nat.lt_or_ge c (k * b) with a | a
      · rw [hun r c (by omega) (by omega)]; exact hlow r c a a2 a3 a4
      · have hc : c / b = k := by rw [Nat.div_eq_iff hb]; omega
        rw [hc] at a4
        exact hX0' r c (by omega) a3 a (by omega)
  · intro hi
    obtain ⟨f1, f2⟩ := o2 hi
    rw [hmn] at f1
    refine ⟨by omega, ?_⟩
    refine FailAt.block hinv (by omega) (fun i hi => (hrng i hi).2) (fun c hc => lzi_le hb hc)
      (fun c a1 a2 => le_trans (by omega) (le_lzi hb a1)) (fun c => lt_lzi hb) hdia ?_ (by omega)
    refine FailAt.grow (m' := gbMak A k) ?_ (by omega) ?_
    · have : FailAt (gbMak A k) (num (gbCfg ib mpt A k) (toPS A k s))
        (infov (gbOut mag dv big ib mpt A k s) - 1) := f2
      refine this.congrA ?_
      intro r c a1 a2
      rw [num_toPS' h, hmask s _ _ (by omega) (by omega) (by omega) (by omega)]
    · intro r c a1 a2 a3
      exact hzero _ _ (by omega) (by omega) (by omega) (by omega)

/-- All steps. -/
theorem gb_loop (hdv : IsDiv dv) (hmag : IsMag mag) (h : GbOK b N kl ku A P ib mpt) (rg : Bool)
    {X0 : Nat → Nat → α} (hX0 : Banded kl ku X0 ∨ N ≤ b) (s : Store (M × Nat × Nat) α)
    (hs : ∀ r c, r < N → c < N → gbX b kl ku A s r c = X0 r c) {K : Nat} (hK : K ≤ A.d.mt)
    (hok : ∀ k, k < K → infov (gbOut mag dv big ib mpt A k
      (texec (tasks ((List.range k).flatMap (gbStep rg E mag dv big ib mpt A P))) s)) = 0) :
    GbInv E b N kl ku A P X0 K (texec (tasks ((List.range K).flatMap (gbStep rg E mag dv big ib mpt A P))) s) := by
  induction K with
  | zero => exact GbInv.init hX0 hs
  | succ K ih =>
    rw [List.range_succ, List.flatMap_append, List.flatMap_cons, List.flatMap_nil, List.append_nil, tasks_append,
      texec_append]
    exact (gb_step hdv hmag h (by omega) rg hX0 (ih (by omega) fun k hk => hok k (by omega))).1 (hok K (by omega))

/-- Result of a successful factorization: pivots in range, `X0` with interchanged rows is the product
of the factors, with the interchanges in the columns of the lower factor delayed to the end. -/
structure GbDone (E : IntCode α) (b N kl ku : Nat) (A P : TMat M) (X0 : Nat → Nat → α)
    (s : Store (M × Nat × Nat) α) : Prop where
  rng : PvOK E P N N s
  inv : LUInv N N X0 (lazyM (pv E P s) (lzi b) N (gbX b kl ku A s)) (perm (pv E P s) 0 N) N
  dia : ∀ c, c < N → gbX b kl ku A s c c ≠ 0
  low : ∀ r c, c < N → r < N → c / b * b + b + kl ≤ r → gbX b kl ku A s r c = 0

theorem GbInv.done (h : GbOK b N kl ku A P ib mpt) {X0 : Nat → Nat → α} {s : Store (M × Nat × Nat) α}
    (hI : GbInv E b N kl ku A P X0 A.d.mt s) : GbDone E b N kl ku A P X0 s := by
  have hN : N ≤ A.d.mt * b := Nat.le_of_not_lt fun hlt => by
    have := h.lt.mpr hlt; omega
  obtain ⟨h1, h2, h3, _, _, h6⟩ := hI
  rw [Nat.min_eq_left hN] at h1 h2 h3
  exact ⟨h1, h2, h3, fun r c a1 a2 a3 => h6 r c (by omega) a1 a2 a3⟩

theorem gbCode_zero {k : Nat} {s : Store (M × Nat × Nat) α} (h : gbCode mag dv big ib mpt A k s = 0) :
    infov (gbOut mag dv big ib mpt A k s) = 0 := by
  unfold gbCode at h
  by_contra hne
  rw [if_neg hne] at h
  omega

theorem gbStep_shape (rg : Bool) (k : Nat) : gbStep rg E mag dv big ib mpt A P k =
    [] ++ [{ task := gbPanelT (gbPanelDeps rg A P k) E mag dv big ib mpt A P k, code := gbCode mag dv big ib mpt A k }] ++
    okT (((span (k + 1) (min A.d.nt (k + A.d.kut))).map fun n => gbUpdT rg E dv A P k n) ++ [gbAdjT E A P k]) := rfl

/-- **Success**: if no panel reports a zero pivot, the result is a factorization. -/
theorem pzgbtrf_ok (hdv : IsDiv dv) (hmag : IsMag mag) (h : GbOK b N kl ku A P ib mpt) (rg : Bool)
    {X0 : Nat → Nat → α} (hX0 : Banded kl ku X0 ∨ N ≤ b) (s : Store (M × Nat × Nat) α)
    (hs : ∀ r c, r < N → c < N → gbX b kl ku A s r c = X0 r c)
    (hc : ∀ i, tcode (pzgbtrf rg E mag dv big ib mpt A P) s i = 0) :
    GbDone E b N kl ku A P X0 (texec (tasks (pzgbtrf rg E mag dv big ib mpt A P)) s) := by
  have hmt : min A.d.mt A.d.nt = A.d.mt := by rw [h.nt, Nat.min_self]
  unfold pzgbtrf at hc ⊢
  rw [hmt] at hc ⊢
  rw [show gbStep rg E mag dv big ib mpt A P = fun k => _ from funext (gbStep_shape rg)] at hc
  refine GbInv.done h (gb_loop hdv hmag h rg hX0 s hs (le_refl _) ?_)
  intro k hk
  rw [← List.append_nil (List.flatMap _ _)] at hc
  have := usteps_zero (fun k => by intro t ht; simp at ht) hc hk
  rw [show gbStep rg E mag dv big ib mpt A P = fun k => _ from funext (gbStep_shape rg)]
  exact gbCode_zero this

/-- **Failure**: the first nonzero status is `j+1` for the first column `j` of the matrix that depends on
the columns before it. -/
theorem pzgbtrf_fail (hdv : IsDiv dv) (hmag : IsMag mag) (h : GbOK b N kl ku A P ib mpt) (rg : Bool)
    {X0 : Nat → Nat → α} (hX0 : Banded kl ku X0 ∨ N ≤ b) (s : Store (M × Nat × Nat) α)
    (hs : ∀ r c, r < N → c < N → gbX b kl ku A s r c = X0 r c)
    {i : Nat} (hn : tcode (pzgbtrf rg E mag dv big ib mpt A P) s i ≠ 0)
    (hf : ∀ j, j < i → tcode (pzgbtrf rg E mag dv big ib mpt A P) s j = 0) :
    ∃ q : Nat, q < N ∧ tcode (pzgbtrf rg E mag dv big ib mpt A P) s i = ((q + 1 : Nat) : Int) ∧ FailAt N X0 q := by
  have hmt : min A.d.mt A.d.nt = A.d.mt := by rw [h.nt, Nat.min_self]
  unfold pzgbtrf at hn hf ⊢
  rw [hmt] at hn hf ⊢
  have hsh := funext (gbStep_shape (E := E) (P := P) (mag := mag) (dv := dv) (big := big) (ib := ib)
    (mpt := mpt) (A := A) rg)
  rw [hsh, ← List.append_nil (List.flatMap _ _)] at hn hf ⊢
  have hU : ∀ k : Nat, Safe ([] : List (GTTask (M × Nat × Nat) α)) := fun k t ht => by simp at ht
  obtain ⟨k, hk, rfl⟩ := usteps_nonzero hU (fun k => safe_okT _) (hU 0) hn
  rw [usteps_code hU hk] at hn ⊢
  have hok : ∀ l, l < k → infov (gbOut mag dv big ib mpt A l
      (texec (tasks ((List.range l).flatMap (gbStep rg E mag dv big ib mpt A P))) s)) = 0 := by
    intro l hl
    have hlen : ((List.range l).flatMap (gbStep rg E mag dv big ib mpt A P)).length <
        ((List.range k).flatMap (gbStep rg E mag dv big ib mpt A P)).length := by
      obtain ⟨R, hR⟩ := usteps_split k l hl (gbStep rg E mag dv big ib mpt A P)
      rw [hR, gbStep_shape]
      simp only [List.length_append, List.length_cons]
      omega
    have := hf ((((List.range l).flatMap (gbStep rg E mag dv big ib mpt A P))).length + 0) (by
      rw [hsh] at hlen ⊢
      exact hlen)
    rw [hsh] at this ⊢
    have e := usteps_code (U := fun _ => []) (V := fun k => okT (((span (k + 1) (min A.d.nt (k + A.d.kut))).map
      fun n => gbUpdT rg E dv A P k n) ++ [gbAdjT E A P k])) (t := fun k =>
      { task := gbPanelT (gbPanelDeps rg A P k) E mag dv big ib mpt A P k, code := gbCode mag dv big ib mpt A k })
      hU (show l < A.d.mt by omega) [] s
    have e2 := e.symm.trans this
    exact gbCode_zero e2
  have hI := gb_loop hdv hmag h rg hX0 s hs (show k ≤ A.d.mt by omega) hok
  rw [← hsh] at hn ⊢
  have hst := (gb_step (big := big) hdv hmag h hk rg hX0 hI).2
  by_cases hne : infov (gbOut mag dv big ib mpt A k
      (texec (tasks ((List.range k).flatMap (gbStep rg E mag dv big ib mpt A P))) s)) = 0
  · exfalso
    apply hn
    exact if_pos hne
  · obtain ⟨f1, f2⟩ := hst hne
    refine ⟨_, f1, ?_, f2⟩
    refine (if_neg hne).trans ?_
    show ((k * A.d.mb + infov (gbOut mag dv big ib mpt A k (texec (tasks ((List.range k).flatMap
      (gbStep rg E mag dv big ib mpt A P))) s)) : Nat) : Int) = _
    rw [h.a.mb]
    congr 1
    omega

end

end Verif.Tile

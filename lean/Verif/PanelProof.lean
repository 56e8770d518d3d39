/-
The LU panel kernel factors the panel.
-/
import Verif.PanelEff

namespace Verif.Panel

open Verif.Tile Verif.Layout Verif.LU Finset

set_option linter.unusedSectionVars false

universe v w

variable {α : Type v} {z : Cfg} {γ : Type w} [LinearOrder γ] [Field α] [StarRing α] [DecidableEq α]

theorem rc (r b : Nat) : r / b * b + r % b = r := by rw [Nat.mul_comm]; exact Nat.div_add_mod _ _

/-! ### Effects of the phases -/

theorem search_num (mag : α → γ) (j : Nat) (s : PS α) :
    num z (phaseRun z.size (searchT z mag j) s) = num z s ∧
    pivv (phaseRun z.size (searchT z mag j) s) = pivv s ∧
    infov (phaseRun z.size (searchT z mag j) s) = infov s := by
  refine ⟨?_, ?_, ?_⟩
  · funext r c
    unfold num
    rw [phaseRun_frame]
    rintro rank _ ⟨h, _⟩; simp at h
  · funext i
    unfold pivv
    rw [phaseRun_frame]
    rintro rank _ ⟨h, _⟩; simp at h
  · unfold infov
    rw [phaseRun_frame]
    rintro rank _ ⟨h, _⟩; simp at h

theorem search_max (h : z.OK) (mag : α → γ) {j : Nat} (hj : j < z.mn) (s : PS α) :
    reduce z.size mag (fun i => (phaseRun z.size (searchT z mag j) s .mval i 0).1)
      (fun i => (phaseRun z.size (searchT z mag j) s .midx i 0).2) = best z mag (num z s) j := by
  unfold best
  apply reduce_congr _ h.size
  · intro i hi
    rw [phaseRun_wr (searchT_free mag z.size j) (fun r _ => searchT_local h mag hj) s hi
      (x := .mval) (i := i) (j := 0) ⟨Or.inl rfl, rfl, rfl⟩]
    rfl
  · intro i hi
    rw [phaseRun_wr (searchT_free mag z.size j) (fun r _ => searchT_local h mag hj) s hi
      (x := .midx) (i := i) (j := 0) ⟨Or.inr rfl, rfl, rfl⟩]
    rfl

theorem pivot_eff (h : z.OK) (mag : α → γ) {k j : Nat} (hj : j < z.mn) (s : PS α) {m : α × Nat}
    (hm : reduce z.size mag (fun i => (s .mval i 0).1) (fun i => (s .midx i 0).2) = m) :
    (∀ i, pivv (phaseRun z.size (pivotT z mag k j) s) i = if i = j then j + m.2 - k + 1 else pivv s i) ∧
    infov (phaseRun z.size (pivotT z mag k j) s) = (if infov s = 0 ∧ m.1 = 0 then j + 1 else infov s) ∧
    (∀ r c, num z (phaseRun z.size (pivotT z mag k j) s) r c =
      if (j ≤ r ∧ r < z.M ∧ k ≤ c ∧ c < k + z.kb k) ∧ ¬ (infov s = 0 ∧ m.1 = 0) then
        num z s (Equiv.swap j (z.clamp j j (j + m.2)) r) c else num z s r c) := by
  have hwr : ∀ {x i c}, (pivotT z mag k j 0).wr x i c →
      phaseRun z.size (pivotT z mag k j) s x i c = (pivotT z mag k j 0).f s x i c := fun hw =>
    phaseRun_wr (pivotT_free mag z.size k j) (fun r _ => pivotT_local h mag hj) s h.size hw
  refine ⟨?_, ?_, ?_⟩
  · intro i
    unfold pivv
    by_cases hi : i = j
    · subst hi
      rw [if_pos rfl, hwr (x := .ipiv) (i := i) (c := 0) ⟨rfl, Or.inr (Or.inl ⟨rfl, rfl, rfl⟩)⟩, ← hm]
      rfl
    · rw [if_neg hi, phaseRun_frame]
      rintro rank _ ⟨_, ⟨h1, _⟩ | ⟨_, h1, _⟩ | ⟨h1, _⟩ | ⟨l, h1, _⟩⟩
      · simp at h1
      · exact hi h1
      · simp at h1
      · simp at h1
  · have := hwr (x := .info) (i := 0) (c := 0) ⟨rfl, Or.inr (Or.inr (Or.inl ⟨rfl, rfl, rfl⟩))⟩
    unfold infov at this ⊢
    rw [this, ← hm]
    show (ite _ _ _ : α × Nat).2 = _
    unfold infov
    split <;> rfl
  · intro r c
    by_cases hr : j ≤ r ∧ r < z.M ∧ k ≤ c ∧ c < k + z.kb k
    · have := hwr (x := .a (r / z.b)) (i := r % z.b) (c := c) ⟨rfl, Or.inr (Or.inr (Or.inr
        (h.reg_at.mpr hr)))⟩
      unfold num at this ⊢
      rw [this]
      show (ite _ _ _ : α × Nat).1 = _
      rw [rc, hm]
      by_cases hf : infov s = 0 ∧ m.1 = 0
      · rw [if_pos hf, if_neg (fun hh => hh.2 hf)]
      · rw [if_neg hf, if_pos ⟨hr, hf⟩]
        rfl
    · rw [if_neg (fun hh => hr hh.1)]
      unfold num
      rw [phaseRun_frame]
      rintro rank _ ⟨_, ⟨h1, _⟩ | ⟨h1, _⟩ | ⟨h1, _⟩ | h1⟩
      · simp at h1
      · simp at h1
      · simp at h1
      · exact hr (h.reg_at.mp h1)

theorem updateT_wr (h : z.OK) (dv : α → α → α) (big : α → Bool) {k j rank r c : Nat} :
    (updateT z dv big k j rank).wr (.a (r / z.b)) (r % z.b) c ↔
      j < r ∧ r < z.M ∧ r / z.b % z.size = rank ∧ j ≤ c ∧ c < k + z.kb k :=
  h.reg_at (R := fun r c => j < r ∧ r < z.M ∧ r / z.b % z.size = rank ∧ j ≤ c ∧ c < k + z.kb k)

theorem gemmT_wr (h : z.OK) {k rank r c : Nat} :
    (gemmT z k rank : TTask PT (α × Nat)).wr (.a (r / z.b)) (r % z.b) c ↔
      k + z.kb k ≤ r ∧ r < z.M ∧ r / z.b % z.size = rank ∧ k + z.kb k ≤ c ∧ c < z.N :=
  h.reg_at (R := fun r c => k + z.kb k ≤ r ∧ r < z.M ∧ r / z.b % z.size = rank ∧ k + z.kb k ≤ c ∧ c < z.N)

theorem update_eff (h : z.OK) (dv : α → α → α) (big : α → Bool) {k j : Nat} (hj : j < k + z.kb k)
    (s : PS α) :
    pivv (phaseRun z.size (updateT z dv big k j) s) = pivv s ∧
    infov (phaseRun z.size (updateT z dv big k j) s) = infov s ∧
    ∀ r c, num z (phaseRun z.size (updateT z dv big k j) s) r c =
      if j < r ∧ r < z.M ∧ j ≤ c ∧ c < k + z.kb k then
        (if c = j then scaled dv big (infov s) (num z s) j r
         else num z s r c + -1 * scaled dv big (infov s) (num z s) j r * num z s j c)
      else num z s r c := by
  refine ⟨?_, ?_, ?_⟩
  · funext i
    unfold pivv
    rw [phaseRun_frame]
    rintro rank _ ⟨l, h1, _⟩; simp at h1
  · unfold infov
    rw [phaseRun_frame]
    rintro rank _ ⟨l, h1, _⟩; simp at h1
  · intro r c
    by_cases hr : j < r ∧ r < z.M ∧ j ≤ c ∧ c < k + z.kb k
    · rw [if_pos hr]
      have hq : r / z.b % z.size < z.size := Nat.mod_lt _ h.size
      have := phaseRun_wr (updateT_free dv big z.size k j) (fun r _ => updateT_local h dv big hj) s hq
        (x := .a (r / z.b)) (i := r % z.b) (j := c)
        ((updateT_wr h dv big).mpr ⟨hr.1, hr.2.1, rfl, hr.2.2.1, hr.2.2.2⟩)
      conv_lhs => unfold num
      rw [this]
      show (ite _ _ _ : α) = _
      simp only [rc]
    · rw [if_neg hr]
      unfold num
      rw [phaseRun_frame]
      intro rank _ hw
      have := (updateT_wr h dv big).mp hw
      exact hr ⟨this.1, this.2.1, this.2.2.2.1, this.2.2.2.2⟩

theorem right_eff (h : z.OK) (dv : α → α → α) {k : Nat} (hk : k ≤ z.mn) (s : PS α) :
    (∀ i, pivv (phaseRun z.size (rightT z dv k) s) i =
      if k ≤ i ∧ i < k + z.kb k then pivv s i + k else pivv s i) ∧
    infov (phaseRun z.size (rightT z dv k) s) = infov s ∧
    ∀ r c, num z (phaseRun z.size (rightT z dv k) s) r c =
      if k ≤ r ∧ r < z.M ∧ k + z.kb k ≤ c ∧ c < z.N then
        (if r < k + z.kb k then
          trsmK dv .left .lower .noTrans .unit (z.kb k) (z.N - (k + z.kb k)) 1
            (fun i j => num z s (k + i) (k + j))
            (fun i j => num z s (perm (prow z s k) k (z.kb k) (k + i)) (k + z.kb k + j)) (r - k)
            (c - (k + z.kb k))
         else num z s (perm (prow z s k) k (z.kb k) r) c)
      else num z s r c := by
  have hwr : ∀ {x i c}, (rightT z dv k 0).wr x i c →
      phaseRun z.size (rightT z dv k) s x i c = (rightT z dv k 0).f s x i c := fun hw =>
    phaseRun_wr (rightT_free dv z.size k) (fun r _ => rightT_local h dv hk) s h.size hw
  refine ⟨?_, ?_, ?_⟩
  · intro i
    unfold pivv
    by_cases hi : k ≤ i ∧ i < k + z.kb k
    · rw [if_pos hi, hwr (x := .ipiv) (i := i) (c := 0) ⟨rfl, Or.inl ⟨rfl, hi.1, hi.2, rfl⟩⟩]
      rfl
    · rw [if_neg hi, phaseRun_frame]
      rintro rank _ ⟨_, ⟨_, h1, h2, _⟩ | ⟨l, h1, _⟩⟩
      · exact hi ⟨h1, h2⟩
      · simp at h1
  · unfold infov
    rw [phaseRun_frame]
    rintro rank _ ⟨_, ⟨h1, _⟩ | ⟨l, h1, _⟩⟩ <;> simp at h1
  · intro r c
    by_cases hr : k ≤ r ∧ r < z.M ∧ k + z.kb k ≤ c ∧ c < z.N
    · rw [if_pos hr]
      have := hwr (x := .a (r / z.b)) (i := r % z.b) (c := c) ⟨rfl, Or.inr (h.reg_at.mpr hr)⟩
      conv_lhs => unfold num
      rw [this]
      show (ite _ _ _ : α) = _
      simp only [rc, interch_eq]
    · rw [if_neg hr]
      unfold num
      rw [phaseRun_frame]
      rintro rank _ ⟨_, ⟨h1, _⟩ | hw⟩
      · simp at h1
      · exact hr (h.reg_at.mp hw)

theorem gemm_eff (h : z.OK) (k : Nat) (s : PS α) :
    pivv (phaseRun z.size (gemmT z k) s) = pivv s ∧
    infov (phaseRun z.size (gemmT z k) s) = infov s ∧
    ∀ r c, num z (phaseRun z.size (gemmT z k) s) r c =
      if k + z.kb k ≤ r ∧ r < z.M ∧ k + z.kb k ≤ c ∧ c < z.N then
        ∑ q ∈ range (z.kb k), -1 * num z s r (k + q) * num z s (k + q) c + 1 * num z s r c
      else num z s r c := by
  refine ⟨?_, ?_, ?_⟩
  · funext i
    unfold pivv
    rw [phaseRun_frame]
    rintro rank _ ⟨l, h1, _⟩; simp at h1
  · unfold infov
    rw [phaseRun_frame]
    rintro rank _ ⟨l, h1, _⟩; simp at h1
  · intro r c
    by_cases hr : k + z.kb k ≤ r ∧ r < z.M ∧ k + z.kb k ≤ c ∧ c < z.N
    · rw [if_pos hr]
      have hq : r / z.b % z.size < z.size := Nat.mod_lt _ h.size
      have := phaseRun_wr (gemmT_free z.size k) (fun r _ => gemmT_local h) s hq
        (x := .a (r / z.b)) (i := r % z.b) (j := c)
        ((gemmT_wr h).mpr ⟨hr.1, hr.2.1, rfl, hr.2.2.1, hr.2.2.2⟩)
      conv_lhs => unfold num
      rw [this]
      show (∑ q ∈ range (z.kb k), -1 * num z s (r / z.b * z.b + r % z.b) (k + q) * num z s (k + q) c +
        1 * num z s (r / z.b * z.b + r % z.b) c) = _
      rw [rc]
    · rw [if_neg hr]
      unfold num
      rw [phaseRun_frame]
      intro rank _ hw
      have := (gemmT_wr h).mp hw
      exact hr ⟨this.1, this.2.1, this.2.2.2.1, this.2.2.2.2⟩

theorem left_eff (h : z.OK) (s : PS α) :
    pivv (phaseRun z.size (leftT z) s) = pivv s ∧
    infov (phaseRun z.size (leftT z) s) = infov s ∧
    ∀ r c, num z (phaseRun z.size (leftT z) s) r c =
      if r < z.M ∧ c < z.mn ∧ (c / z.ib + 1) * z.ib < z.mn then
        num z s (perm (prow z s 0) ((c / z.ib + 1) * z.ib) (z.mn - (c / z.ib + 1) * z.ib) r) c
      else num z s r c := by
  refine ⟨?_, ?_, ?_⟩
  · funext i
    unfold pivv
    rw [phaseRun_frame]
    rintro rank _ ⟨_, l, h1, _⟩; simp at h1
  · unfold infov
    rw [phaseRun_frame]
    rintro rank _ ⟨_, l, h1, _⟩; simp at h1
  · intro r c
    by_cases hr : r < z.M ∧ c < z.mn
    · have := phaseRun_wr (leftT_free z.size) (fun r _ => leftT_local h) s h.size
        (x := .a (r / z.b)) (i := r % z.b) (j := c)
        (show (leftT z 0 : TTask PT (α × Nat)).wr _ _ _ from ⟨rfl, h.reg_at.mpr hr⟩)
      conv_lhs => unfold num
      rw [this]
      show leftF _ _ _ _ _ _ = _
      rw [rc, leftF_eq h.ib]
      by_cases hc : (c / z.ib + 1) * z.ib < z.mn
      · rw [if_pos hc, if_pos ⟨hr.1, hr.2, hc⟩]
      · rw [if_neg hc, if_neg (fun hh => hc hh.2.2)]
    · rw [if_neg (fun hh => hr ⟨hh.1, hh.2.1⟩)]
      unfold num
      rw [phaseRun_frame]
      rintro rank _ ⟨_, hw⟩
      exact hr (h.reg_at.mp hw)

/-! ### Eliminating one column -/

/-- What the pivot search needs of `plasma_core_dcabs1`: only zero is as small as zero. -/
structure IsMag (mag : α → γ) : Prop where
  zero : ∀ x, mag x ≤ mag 0 → x = 0

/-- Rows `j ≤ r`, columns of the inner block, after eliminating column `j` with pivot row `jp`. -/
def elimE (X : Nat → Nat → α) (j jp r c : Nat) : α :=
  if r = j ∨ c < j then X (Equiv.swap j jp r) c
  else if c = j then X (Equiv.swap j jp r) j / X jp j
  else X (Equiv.swap j jp r) c - X (Equiv.swap j jp r) j / X jp j * X jp c

theorem col_step (h : z.OK) {mag : α → γ} (hmag : IsMag mag) {dv : α → α → α} (hdv : IsDiv dv)
    (big : α → Bool) {k j : Nat} (hk : k ≤ z.mn) (hkj : k ≤ j) (hj : j < k + z.kb k) (s : PS α) :
    ∃ jp, j ≤ jp ∧ jp < z.M ∧
    (∀ i, pivv (phasesRun z.size [searchT z mag j, pivotT z mag k j, updateT z dv big k j] s) i =
      if i = j then jp - k + 1 else pivv s i) ∧
    (∀ r c, (r < j ∨ c < k ∨ k + z.kb k ≤ c ∨ z.M ≤ r) →
      num z (phasesRun z.size [searchT z mag j, pivotT z mag k j, updateT z dv big k j] s) r c = num z s r c) ∧
    (infov s ≠ 0 →
      infov (phasesRun z.size [searchT z mag j, pivotT z mag k j, updateT z dv big k j] s) = infov s) ∧
    (infov s = 0 →
      (num z s jp j = 0 → infov (phasesRun z.size [searchT z mag j, pivotT z mag k j, updateT z dv big k j] s) = j + 1 ∧
        ∀ r, j ≤ r → r < z.M → num z s r j = 0) ∧
      (num z s jp j ≠ 0 → infov (phasesRun z.size [searchT z mag j, pivotT z mag k j, updateT z dv big k j] s) = 0 ∧
        ∀ r c, j ≤ r → r < z.M → k ≤ c → c < k + z.kb k →
        num z (phasesRun z.size [searchT z mag j, pivotT z mag k j, updateT z dv big k j] s) r c =
          elimE (num z s) j jp r c)) ∧
    (∀ r, j ≤ r → r < z.M → mag (num z s r j) ≤ mag (num z s jp j)) ∧
    jp = j + (best z mag (num z s) j).2 := by
  have hjm : j < z.mn := lt_of_lt_of_le hj (Cfg.kb_le hk)
  have hjM : j < z.M := lt_of_lt_of_le hjm z.mn_M
  obtain ⟨hb1, hb2, hb3⟩ := best_spec h mag (num z s) hjm
  obtain ⟨e1, e2, e3⟩ := search_num (z := z) mag j s
  have em := search_max h mag hjm s
  obtain ⟨p1, p2, p3⟩ := pivot_eff h mag (k := k) hjm (phaseRun z.size (searchT z mag j) s) em
  obtain ⟨u1, u2, u3⟩ := update_eff h dv big hj
    (phaseRun z.size (pivotT z mag k j) (phaseRun z.size (searchT z mag j) s))
  simp only [phasesRun_cons, phasesRun_nil]
  generalize hs1 : phaseRun z.size (searchT z mag j) s = s1 at *
  generalize hs2 : phaseRun z.size (pivotT z mag k j) s1 = s2 at *
  generalize hs3 : phaseRun z.size (updateT z dv big k j) s2 = s3 at *
  generalize hbm : best z mag (num z s) j = m at *
  have hcl : z.clamp j j (j + m.2) = j + m.2 := Cfg.clamp_of (by omega) hb1
  rw [hcl] at p3
  have hsw : ∀ r, j ≤ r → r < z.M → j ≤ Equiv.swap j (j + m.2) r ∧ Equiv.swap j (j + m.2) r < z.M := by
    intro r h1 h2
    rw [Equiv.swap_apply_def]
    split
    · omega
    · split <;> omega
  refine ⟨j + m.2, by omega, hb1, ?_, ?_, ?_, ?_, fun r a1 a2 => by rw [← hb2]; exact hb3 r a1 a2, rfl⟩
  · intro i; rw [u1, p1 i, e2]
  · intro r c hrc
    rw [u3, if_neg (by omega), p3, if_neg (fun hh => by omega), e1]
  · intro hi
    rw [u2, p2, e3, if_neg (fun hh => hi hh.1)]
  · intro hi
    refine ⟨?_, ?_⟩
    · intro hz
      refine ⟨?_, ?_⟩
      · rw [u2, p2, e3, if_pos ⟨hi, by rw [hb2, hz]⟩]
      · intro r h1 h2
        apply hmag.zero
        have := hb3 r h1 h2
        rwa [hb2, hz] at this
    · intro hz
      have hnf : ¬ (infov s1 = 0 ∧ m.1 = 0) := fun hh => hz (by rw [← hb2]; exact hh.2)
      have hi2 : infov s2 = 0 := by rw [p2, if_neg hnf, e3, hi]
      refine ⟨by rw [u2, hi2], ?_⟩
      have hs2n : ∀ r c, j ≤ r → r < z.M → k ≤ c → c < k + z.kb k →
          num z s2 r c = num z s (Equiv.swap j (j + m.2) r) c := by
        intro r c a1 a2 a3 a4
        rw [p3, if_pos ⟨⟨a1, a2, a3, a4⟩, hnf⟩, e1]
      have hjj : num z s2 j j = num z s (j + m.2) j := by
        rw [hs2n j j (le_refl _) hjM hkj hj, Equiv.swap_apply_left]
      have hsc : ∀ r, j < r → r < z.M → scaled dv big (infov s2) (num z s2) j r =
          num z s (Equiv.swap j (j + m.2) r) j / num z s (j + m.2) j := by
        intro r a1 a2
        unfold scaled
        rw [if_pos hi2, hjj, hs2n r j (by omega) a2 hkj hj]
        split
        · exact hdv.eq _ _ hz
        · rw [hdv.eq _ _ hz]; ring
      intro r c a1 a2 a3 a4
      rw [u3]
      unfold elimE
      by_cases hr : r = j
      · subst hr
        rw [if_neg (by omega), if_pos (Or.inl rfl), hs2n r c a1 a2 a3 a4]
      · by_cases hc : c < j
        · rw [if_neg (by omega), if_pos (Or.inr hc), hs2n r c a1 a2 a3 a4]
        · rw [if_pos ⟨by omega, a2, by omega, a4⟩, if_neg (show ¬ (r = j ∨ c < j) by omega), hsc r (by omega) a2]
          by_cases hcj : c = j
          · rw [if_pos hcj, if_pos hcj]
          · rw [if_neg hcj, if_neg hcj, hs2n r c a1 a2 a3 a4, hs2n j c (le_refl _) hjM a3 a4,
              Equiv.swap_apply_left]
            ring

/-! ### One inner block -/

/-- State after `jj` columns of the inner block starting at column `k`, which began in `s0`. -/
structure Inner (z : Cfg) (k : Nat) (s0 : PS α) (jj : Nat) (s : PS α) : Prop where
  out : ∀ r c, (r < k ∨ c < k ∨ k + z.kb k ≤ c ∨ z.M ≤ r) → num z s r c = num z s0 r c
  pv : ∀ i, i < k ∨ k + jj ≤ i → pivv s i = pivv s0 i
  bad0 : infov s0 ≠ 0 → infov s = infov s0
  ok : infov s = 0 → (∀ i, i < jj → 1 ≤ pivv s (k + i) ∧ i ≤ pivv s (k + i) - 1 ∧ pivv s (k + i) - 1 < z.M - k) ∧
    LUInv (z.M - k) (z.kb k) (fun r c => num z s0 (k + r) (k + c)) (fun r c => num z s (k + r) (k + c))
      (perm (fun i => pivv s (k + i) - 1) 0 jj) jj ∧ ∀ c, c < jj → num z s (k + c) (k + c) ≠ 0
  bad : infov s0 = 0 → infov s ≠ 0 → ∃ t, t < jj ∧ infov s = k + t + 1 ∧
    FailAt (z.M - k) (fun r c => num z s0 (k + r) (k + c)) t

theorem inner_step (h : z.OK) {mag : α → γ} (hmag : IsMag mag) {dv : α → α → α} (hdv : IsDiv dv)
    (big : α → Bool) {k jj : Nat} (hk : k ≤ z.mn) (hj : jj < z.kb k) {s0 s : PS α} (hI : Inner z k s0 jj s) :
    Inner z k s0 (jj + 1)
      (phasesRun z.size [searchT z mag (k + jj), pivotT z mag k (k + jj), updateT z dv big k (k + jj)] s) := by
  obtain ⟨jp, h1, h2, hp, ho, hb, hok, -, -⟩ := col_step h hmag hdv big hk (Nat.le_add_right k jj) (by omega) s
  generalize phasesRun z.size [searchT z mag (k + jj), pivotT z mag k (k + jj), updateT z dv big k (k + jj)] s = s3 at *
  have hkM : k + jj < z.M := by have := Cfg.kb_le (z := z) hk; have := z.mn_M; omega
  obtain ⟨q, rfl⟩ : ∃ q, jp = k + q := ⟨jp - k, by omega⟩
  constructor
  · intro r c hrc
    rw [ho r c (by omega), hI.out r c hrc]
  · intro i hi
    rw [hp i, if_neg (by omega), hI.pv i (by omega)]
  · intro h0
    have := hI.bad0 h0
    rw [hb (by rw [this]; exact h0), this]
  · intro h3
    have hs0 : infov s = 0 := by
      by_contra hne
      rw [hb hne] at h3; exact hne h3
    have hnz : num z s (k + q) (k + jj) ≠ 0 := by
      intro hz
      have := (hok hs0).1 hz
      omega
    obtain ⟨_, hel⟩ := (hok hs0).2 hnz
    obtain ⟨hr, hL, hd⟩ := hI.ok hs0
    have hpold : ∀ i, i < jj → pivv s3 (k + i) = pivv s (k + i) := fun i hi => by
      rw [hp, if_neg (by omega)]
    have hpnew : pivv s3 (k + jj) = q + 1 := by rw [hp, if_pos rfl]; omega
    have hperm : perm (fun i => pivv s3 (k + i) - 1) 0 (jj + 1) =
        perm (fun i => pivv s (k + i) - 1) 0 jj * Equiv.swap jj q := by
      simp only [perm, Nat.zero_add]
      rw [hpnew, Nat.add_sub_cancel]
      congr 1
      exact perm_congr fun i _ hi => by rw [hpold i (by omega)]
    have hsw : ∀ r, Equiv.swap (k + jj) (k + q) (k + r) = k + Equiv.swap jj q r := by
      intro r
      rw [Equiv.swap_apply_def, Equiv.swap_apply_def]
      by_cases a1 : r = jj
      · subst a1; simp
      · by_cases a2 : r = q
        · subst a2; simp [a1]
        · simp [a1, a2]
    have hel' : ∀ r c, jj ≤ r → r < z.M - k → c < z.kb k → num z s3 (k + r) (k + c) =
        if r = jj ∨ c < jj then num z s (k + Equiv.swap jj q r) (k + c)
        else if c = jj then num z s (k + Equiv.swap jj q r) (k + jj) / num z s (k + q) (k + jj)
        else num z s (k + Equiv.swap jj q r) (k + c) -
          num z s (k + Equiv.swap jj q r) (k + jj) / num z s (k + q) (k + jj) * num z s (k + q) (k + c) := by
      intro r c a1 a2 a3
      rw [hel (k + r) (k + c) (by omega) (by omega) (by omega) (by omega)]
      unfold elimE
      rw [hsw]
      simp only [Nat.add_right_inj, Nat.add_lt_add_iff_left]
    have hrowj : ∀ c, c < z.kb k → num z s3 (k + jj) (k + c) = num z s (k + q) (k + c) := by
      intro c hc
      rw [hel' jj c (le_refl _) (by omega) hc, if_pos (Or.inl rfl), Equiv.swap_apply_left]
    refine ⟨?_, ?_, ?_⟩
    · intro i hi
      rcases Nat.lt_or_ge i jj with h4 | h4
      · rw [hpold i h4]; exact hr i h4
      · obtain rfl : i = jj := by omega
        rw [hpnew]; omega
    · rw [hperm]
      have hmin : jj + 1 = min (z.M - k) (jj + 1) := by omega
      conv => arg 6; rw [hmin]
      refine LUInv.step hL (by omega) ?_ ?_ ?_ ?_ ?_ ?_
      · intro r hr'
        exact Equiv.swap_apply_of_ne_of_ne (by omega) (by omega)
      · intro r a1 a2
        rw [Equiv.swap_apply_def]
        split
        · omega
        · split <;> omega
      · intro r c a1 a2
        exact ho _ _ (by omega)
      · intro r c a1 a2 a3
        rw [hel' r c a1 a2 (by omega), if_pos (Or.inr a3)]
      · intro r c a1 a2 a3 a4
        obtain rfl : c = jj := by omega
        rcases Nat.eq_or_lt_of_le a1 with a5 | a5
        · subst a5
          rw [show min c (c + 1) = c by omega, Ico_self, sum_empty, zero_add, if_pos (le_refl _),
            hrowj c hj, Equiv.swap_apply_left]
        · rw [show min r (c + 1) = c + 1 by omega, Nat.Ico_succ_singleton, sum_singleton, if_neg (by omega), add_zero,
            hel' r c a1 a2 hj, if_neg (by omega), if_pos rfl, hrowj c hj, div_mul_cancel₀ _ hnz]
      · intro r c a1 a2 a3 a4
        rcases Nat.eq_or_lt_of_le a1 with a5 | a5
        · subst a5
          rw [show min jj (jj + 1) = jj by omega, Ico_self, sum_empty, zero_add,
            hrowj c a4, Equiv.swap_apply_left]
        · rw [show min r (jj + 1) = jj + 1 by omega, Nat.Ico_succ_singleton, sum_singleton,
            hel' r c a1 a2 a4, if_neg (by omega), if_neg (by omega), hel' r jj a1 a2 hj,
            if_neg (by omega), if_pos rfl, hrowj c a4]
          ring
    · intro c hc
      rcases Nat.lt_or_ge c jj with h4 | h4
      · rw [ho _ _ (by omega)]; exact hd c h4
      · obtain rfl : c = jj := by omega
        rw [hrowj c hj]; exact hnz
  · intro h0 h3
    by_cases hs0 : infov s = 0
    · have hz : num z s (k + q) (k + jj) = 0 := by
        by_contra hnz
        exact h3 ((hok hs0).2 hnz).1
      obtain ⟨hi, hzero⟩ := (hok hs0).1 hz
      obtain ⟨hr, hL, hd⟩ := hI.ok hs0
      refine ⟨jj, by omega, hi, (fun i => pivv s (k + i) - 1), (fun r c => num z s (k + r) (k + c)), ?_, by omega,
        hL.mono (by omega), hd, ?_⟩
      · intro i hi'; exact ⟨(hr i hi').2.1, (hr i hi').2.2⟩
      · intro r a1 a2; exact hzero _ (by omega) (by omega)
    · obtain ⟨t, ht, hi, hf⟩ := hI.bad h0 hs0
      exact ⟨t, by omega, by rw [hb hs0, hi], hf⟩

theorem inner_loop (h : z.OK) {mag : α → γ} (hmag : IsMag mag) {dv : α → α → α} (hdv : IsDiv dv)
    (big : α → Bool) {k : Nat} (hk : k ≤ z.mn) (s : PS α) :
    Inner z k s (z.kb k) (phasesRun z.size ((List.range' k (z.kb k)).flatMap fun j =>
      [searchT z mag j, pivotT z mag k j, updateT z dv big k j]) s) := by
  have key : ∀ n, n ≤ z.kb k → Inner z k s n (phasesRun z.size ((List.range' k n).flatMap fun j =>
      [searchT z mag j, pivotT z mag k j, updateT z dv big k j]) s) := by
    intro n
    induction n with
    | zero =>
      intro _
      refine ⟨fun _ _ _ => rfl, fun _ _ => rfl, fun _ => rfl, fun _ => ⟨by simp, LUInv.init _ _ _, by simp⟩,
        fun h0 h1 => absurd h0 h1⟩
    | succ n ih =>
      intro hn
      rw [List.range'_concat, Nat.one_mul, List.flatMap_append, phasesRun_append]
      simp only [List.flatMap_cons, List.flatMap_nil, List.append_nil]
      exact inner_step h hmag hdv big hk (by omega) (ih (by omega))
  exact key _ (le_refl _)

/-! ### The whole panel -/

/-- Solving with a unit lower triangular tile from the left. -/
theorem trsmLLU {dv : α → α → α} (hdv : IsDiv dv) {m n : Nat} (A B : Tl α) {i j : Nat} (hi : i < m) :
    B i j = ∑ l ∈ range i, A i l * trsmK dv .left .lower .noTrans .unit m n 1 A B l j +
      trsmK dv .left .lower .noTrans .unit m n 1 A B i j := by
  have hsp := trsmK_spec (sd := .left) (u := .lower) (t := .noTrans) (d := .unit) (m := m) (n := n)
    (alpha := (1 : α)) (X := A) (Y := B) hdv one_ne_zero (fun i _ => by unfold trE; simp) (r := i) (c := j) hi
  unfold trN trEl at hsp
  simp only [if_true] at hsp
  rw [one_mul] at hsp
  rw [← hsp]
  generalize trsmK dv .left .lower .noTrans .unit m n 1 A B = Z
  unfold trT
  simp only [if_true, opE]
  have h1 : ∑ l ∈ range m, trE .lower .unit A i l * Z l j = ∑ l ∈ range (i + 1), trE .lower .unit A i l * Z l j := by
    symm
    refine Finset.sum_subset (fun x hx => by rw [mem_range] at hx ⊢; omega) ?_
    intro l _ hl
    rw [mem_range] at hl
    rw [trE_out (by unfold inTri; simp only; omega), zero_mul]
  rw [h1, sum_range_succ]
  congr 1
  · refine sum_congr rfl fun l hl => ?_
    rw [mem_range] at hl
    rw [trE_off (by unfold inTri; simp only; omega) (by omega)]
  · unfold trE; simp

/-- How far the interchanges have been applied to a column: to the end of its inner block. -/
def lzi (ib c : Nat) : Nat := (c / ib + 1) * ib

theorem lt_lzi {ib c : Nat} (hb : 0 < ib) : c < lzi ib c := by
  unfold lzi
  have h1 := Nat.div_add_mod c ib
  have h2 := Nat.mod_lt c hb
  rw [Nat.succ_mul, Nat.mul_comm (c / ib)]; omega

theorem lzi_le {ib c q : Nat} (hb : 0 < ib) (h : c < q * ib) : lzi ib c ≤ q * ib := by
  unfold lzi
  apply Nat.mul_le_mul_right
  have := (Nat.div_lt_iff_lt_mul hb).mpr h
  omega

theorem le_lzi {ib c q : Nat} (hb : 0 < ib) (h : q * ib ≤ c) : q * ib + ib ≤ lzi ib c := by
  unfold lzi
  rw [← Nat.succ_mul]
  apply Nat.mul_le_mul_right
  have := (Nat.le_div_iff_mul_le hb).mpr h
  omega

/-- State of the panel `A0` when the inner blocks up to column `K` are done. -/
structure Outer (z : Cfg) (A0 : Nat → Nat → α) (K : Nat) (s : PS α) : Prop where
  ok : infov s = 0 → (∀ i, i < K → 1 ≤ pivv s i ∧ i ≤ pivv s i - 1 ∧ pivv s i - 1 < z.M) ∧
    LUInv z.M z.N A0 (lazyM (fun i => pivv s i - 1) (lzi z.ib) K (num z s)) (perm (fun i => pivv s i - 1) 0 K) K ∧
    ∀ c, c < K → num z s c c ≠ 0
  bad : infov s ≠ 0 → infov s ≤ z.mn ∧ FailAt z.M A0 (infov s - 1)

theorem outer_step (h : z.OK) {mag : α → γ} (hmag : IsMag mag) {dv : α → α → α} (hdv : IsDiv dv)
    (big : α → Bool) {A0 : Nat → Nat → α} {q : Nat} (hq : q * z.ib < z.mn) {s : PS α} (hO : Outer z A0 (q * z.ib) s) :
    Outer z A0 (q * z.ib + z.kb (q * z.ib)) (phasesRun z.size
      (((List.range' (q * z.ib) (z.kb (q * z.ib))).flatMap fun j =>
        [searchT z mag j, pivotT z mag (q * z.ib) j, updateT z dv big (q * z.ib) j]) ++
      [rightT z dv (q * z.ib), gemmT z (q * z.ib)]) s) := by
  rw [phasesRun_append]
  have hI := inner_loop h hmag hdv big (le_of_lt hq) s
  generalize phasesRun z.size ((List.range' (q * z.ib) (z.kb (q * z.ib))).flatMap fun j =>
        [searchT z mag j, pivotT z mag (q * z.ib) j, updateT z dv big (q * z.ib) j]) s = s1 at hI ⊢
  simp only [phasesRun_cons, phasesRun_nil]
  obtain ⟨r1, r2, r3⟩ := right_eff h dv (le_of_lt hq) s1
  generalize phaseRun z.size (rightT z dv (q * z.ib)) s1 = s2 at r1 r2 r3 ⊢
  obtain ⟨g1, g2, g3⟩ := gemm_eff h (q * z.ib) s2
  generalize phaseRun z.size (gemmT z (q * z.ib)) s2 = s3 at g1 g2 g3 ⊢
  have hlz1 : ∀ c, c < q * z.ib → lzi z.ib c ≤ q * z.ib := fun c hc => lzi_le h.ib hc
  have hlz2 : ∀ c, q * z.ib ≤ c → q * z.ib + z.ib ≤ lzi z.ib c := fun c hc => le_lzi h.ib hc
  have hkbi : z.kb (q * z.ib) ≤ z.ib := by unfold Cfg.kb; omega
  have hkb := Cfg.kb_le (z := z) (le_of_lt hq)
  have hkp : 0 < z.kb (q * z.ib) := by have := h.ib; unfold Cfg.kb; omega
  generalize q * z.ib = k at *
  generalize hw : z.kb k = w at *
  have hM := z.mn_M
  have hN := z.mn_N
  have hinf : infov s3 = infov s1 := by rw [g2, r2]
  constructor
  · intro h3
    have h1 : infov s1 = 0 := by rw [← hinf, h3]
    have h0 : infov s = 0 := by
      by_contra hne
      have := hI.bad0 hne
      omega
    obtain ⟨hpr, hL, hd⟩ := hO.ok h0
    obtain ⟨hpr1, hL1, hd1⟩ := hI.ok h1
    rw [hw] at hL1
    have hp3lo : ∀ i, i < k → pivv s3 i = pivv s i := fun i hi => by
      rw [g1, r1, if_neg (by omega), hI.pv i (by omega)]
    have hp3hi : ∀ i, i < w → pivv s3 (k + i) = pivv s1 (k + i) + k := fun i hi => by
      rw [g1, r1, if_pos ⟨by omega, by omega⟩]
    have hp3 : ∀ i, i < k + w → 1 ≤ pivv s3 i ∧ i ≤ pivv s3 i - 1 ∧ pivv s3 i - 1 < z.M := by
      intro i hi
      rcases Nat.lt_or_ge i k with a | a
      · rw [hp3lo i a]; exact hpr i a
      · obtain ⟨i, rfl⟩ := Nat.exists_eq_add_of_le a
        rw [hp3hi i (by omega)]
        have := hpr1 i (by omega)
        omega
    have hprow : ∀ i, k ≤ i → i < k + w → prow z s1 k i = pivv s3 i - 1 := by
      intro i a1 a2
      have a3 := hp3 i a2
      obtain ⟨i, rfl⟩ := Nat.exists_eq_add_of_le a1
      rw [hp3hi i (by omega)] at a3 ⊢
      unfold prow
      exact Cfg.clamp_of a3.2.1 a3.2.2
    have hpermk : perm (prow z s1 k) k w = perm (fun i => pivv s3 i - 1) k w := perm_congr hprow
    have hsh : ∀ r, perm (fun i => pivv s3 i - 1) k w (k + r) =
        k + perm (fun i => pivv s1 (k + i) - 1) 0 w r := by
      apply perm_shift
      intro i hi
      have := hpr1 i hi
      rw [hp3hi i hi]; omega
    -- columns of the block
    have hcol : ∀ r c, c < k + w → num z s3 r c = num z s1 r c := by
      intro r c hc
      rw [g3, if_neg (by omega), r3, if_neg (by omega)]
    have hdone : ∀ r c, r < z.M - k → c < w →
        num z s (k + perm (fun i => pivv s1 (k + i) - 1) 0 w r) (k + c) =
        luE (fun r c => num z s1 (k + r) (k + c)) r c := fun r c a1 a2 => hL1.done (by omega) a1 a2
    have hs1r : ∀ r c, k + w ≤ c → num z s1 r c = num z s r c := fun r c hc =>
      hI.out r c (Or.inr (Or.inr (Or.inl (by rw [hw]; exact hc))))
    refine ⟨hp3, ?_, ?_⟩
    · have hL' : LUInv z.M z.N A0 (lazyM (fun i => pivv s3 i - 1) (lzi z.ib) k (num z s))
          (perm (fun i => pivv s3 i - 1) 0 k) k := by
        rwa [lazyM_congr (p' := fun i => pivv s i - 1) (fun i hi => by rw [hp3lo i hi]),
          perm_congr (q := fun i => pivv s i - 1) (fun i _ hi => by rw [hp3lo i (by omega)])]
      refine LUInv.lazy_step (X := num z s) (w := w) hL' (by omega) (by omega) (by omega)
        (fun i hi => (hp3 i hi).2) hlz1 (fun c a1 a2 => le_trans (by omega) (hlz2 c a1)) ?_ ?_ ?_ ?_
      · intro r c _ hc
        rw [hcol r c (by omega), hI.out r c (by omega)]
      · intro r c hr a1 a2
        rw [g3, if_neg (by omega), r3, if_neg (by omega), hI.out r c (by omega)]
      · intro r c a1 a2 a3 a4
        obtain ⟨r, rfl⟩ := Nat.exists_eq_add_of_le a1
        obtain ⟨c, rfl⟩ := Nat.exists_eq_add_of_le a3
        rw [Nat.add_sub_cancel_left, hsh, hdone r c (by omega) (by omega), luE,
          show min (k + r) (k + c + 1) = k + min r (c + 1) by omega, sum_Ico_eq_sum_range,
          Nat.add_sub_cancel_left]
        congr 1
        · refine sum_congr rfl fun l hl => ?_
          rw [mem_range] at hl
          rw [hcol _ _ (by omega), hcol _ _ a4]
        · rw [hcol _ _ a4]
          simp only [Nat.add_le_add_iff_left]
      · intro r c a1 a2 a3 a4
        rw [Nat.add_sub_cancel_left]
        -- the rows of the block
        have htr : ∀ i, i < w → num z s (perm (fun i => pivv s3 i - 1) k w (k + i)) c =
            ∑ l ∈ range i, num z s1 (k + i) (k + l) * num z s2 (k + l) c + num z s2 (k + i) c := by
          intro i hi
          have hz : ∀ l, l < w → num z s2 (k + l) c =
              trsmK dv .left .lower .noTrans .unit w (z.N - (k + w)) 1 (fun i j => num z s1 (k + i) (k + j))
                (fun i j => num z s1 (perm (prow z s1 k) k w (k + i)) (k + w + j)) l (c - (k + w)) := by
            intro l hl
            rw [r3, if_pos ⟨by omega, by omega, a3, a4⟩, if_pos (by omega), Nat.add_sub_cancel_left]
          have := trsmLLU hdv (n := z.N - (k + w)) (fun i j => num z s1 (k + i) (k + j))
            (fun i j => num z s1 (perm (prow z s1 k) k w (k + i)) (k + w + j)) (i := i) (j := c - (k + w)) hi
          rw [← hz i hi] at this
          rw [Nat.add_sub_cancel' a3, hs1r _ _ a3, hpermk] at this
          rw [this]
          congr 1
          refine sum_congr rfl fun l hl => ?_
          rw [mem_range] at hl
          rw [hz l (by omega), hpermk]
        rcases Nat.lt_or_ge r (k + w) with a5 | a5
        · obtain ⟨i, rfl⟩ := Nat.exists_eq_add_of_le a1
          rw [htr i (by omega), show min (k + i) (k + w) = k + i by omega, sum_Ico_eq_sum_range,
            Nat.add_sub_cancel_left]
          congr 1
          · refine sum_congr rfl fun l hl => ?_
            rw [mem_range] at hl
            rw [hcol _ _ (by omega), g3 (k + l) c, if_neg (by omega)]
          · rw [g3, if_neg (by omega)]
        · rw [show min r (k + w) = k + w by omega, sum_Ico_eq_sum_range, Nat.add_sub_cancel_left]
          have e1 : num z s3 r c = ∑ q ∈ range w, -1 * num z s2 r (k + q) * num z s2 (k + q) c + 1 * num z s2 r c := by
            rw [g3, if_pos ⟨a5, a2, a3, a4⟩]
          have e2 : num z s2 r c = num z s (perm (fun i => pivv s3 i - 1) k w r) c := by
            rw [r3, if_pos ⟨a1, a2, a3, a4⟩, if_neg (by omega), hpermk, hs1r _ _ a3]
          have e3 : ∑ l ∈ range w, num z s3 r (k + l) * num z s3 (k + l) c =
              ∑ l ∈ range w, num z s2 r (k + l) * num z s2 (k + l) c := by
            refine sum_congr rfl fun l hl => ?_
            rw [mem_range] at hl
            rw [g3 r (k + l), if_neg (by omega), g3 (k + l) c, if_neg (by omega)]
          rw [e3, e1, e2, ← add_assoc, ← sum_add_distrib, one_mul]
          have e4 : ∑ l ∈ range w, (num z s2 r (k + l) * num z s2 (k + l) c +
              -1 * num z s2 r (k + l) * num z s2 (k + l) c) = 0 := by
            refine sum_eq_zero fun l _ => by ring
          rw [e4, zero_add]
    · intro c hc
      rw [hcol c c hc]
      rcases Nat.lt_or_ge c k with a | a
      · rw [hI.out c c (by omega)]; exact hd c a
      · obtain ⟨c, rfl⟩ := Nat.exists_eq_add_of_le a
        exact hd1 c (by omega)
  · intro h3
    have h1 : infov s1 ≠ 0 := by rwa [← hinf]
    by_cases h0 : infov s = 0
    · obtain ⟨t, ht, hi, hf⟩ := hI.bad h0 h1
      obtain ⟨hpr, hL, hd⟩ := hO.ok h0
      rw [hinf, hi]
      refine ⟨by omega, ?_⟩
      rw [Nat.add_sub_cancel]
      exact FailAt.block hL (by omega) (fun i hi => (hpr i hi).2) hlz1
        (fun c a1 a2 => le_trans (by omega) (hlz2 c a1)) (fun c => lt_lzi h.ib) hd hf (by omega)
    · rw [hinf, hI.bad0 h0]
      exact hO.bad h0

theorem outer_loop (h : z.OK) {mag : α → γ} (hmag : IsMag mag) {dv : α → α → α} (hdv : IsDiv dv)
    (big : α → Bool) (s : PS α) (h0 : infov s = 0) :
    Outer z (num z s) z.mn (phasesRun z.size ((blocks z).flatMap fun k =>
      ((List.range' k (z.kb k)).flatMap fun j => [searchT z mag j, pivotT z mag k j, updateT z dv big k j]) ++
      [rightT z dv k, gemmT z k]) s) := by
  have key : ∀ n, n ≤ ceilDiv z.mn z.ib → Outer z (num z s) (min (n * z.ib) z.mn) (phasesRun z.size
      (((List.range n).map (· * z.ib)).flatMap fun k =>
      ((List.range' k (z.kb k)).flatMap fun j => [searchT z mag j, pivotT z mag k j, updateT z dv big k j]) ++
      [rightT z dv k, gemmT z k]) s) := by
    intro n
    induction n with
    | zero =>
      intro _
      rw [Nat.zero_mul, Nat.zero_min]
      exact ⟨fun _ => ⟨by simp, LUInv.init _ _ _, by simp⟩, fun hh => absurd h0 hh⟩
    | succ n ih =>
      intro hn
      have hlt : n * z.ib < z.mn := (lt_ceilDiv h.ib).mp (by omega)
      have := ih (by omega)
      rw [Nat.min_eq_left (le_of_lt hlt)] at this
      rw [List.range_succ, List.map_append, List.flatMap_append, phasesRun_append]
      have h2 := outer_step h hmag hdv big hlt this
      have e : n * z.ib + z.kb (n * z.ib) = min ((n + 1) * z.ib) z.mn := by
        rw [Nat.succ_mul]; unfold Cfg.kb; omega
      rw [e] at h2
      simpa using h2
  have := key _ (le_refl _)
  have e : min (ceilDiv z.mn z.ib * z.ib) z.mn = z.mn := by
    have := (lt_ceilDiv (m := z.mn) (k := ceilDiv z.mn z.ib) h.ib).not.mp (Nat.lt_irrefl _)
    omega
  rw [e] at this
  exact this

/-- **The panel kernel is correct**: if no zero pivot was met, the pivots are in range and the
panel with rows interchanged is the product of the factors left in its place; otherwise `info`
is one more than the number of the first column with no non-zero pivot. -/
theorem panel_ok (h : z.OK) {mag : α → γ} (hmag : IsMag mag) {dv : α → α → α} (hdv : IsDiv dv)
    (big : α → Bool) (s : PS α) (h0 : infov s = 0) {s' : PS α}
    (hs' : s' = phasesRun z.size (phases z mag dv big) s) :
    (infov s' = 0 → (∀ i, i < z.mn → 1 ≤ pivv s' i ∧ i ≤ pivv s' i - 1 ∧ pivv s' i - 1 < z.M) ∧
      (∀ r c, r < z.M → c < z.N → num z s (perm (fun i => pivv s' i - 1) 0 z.mn r) c = luE (num z s') r c) ∧
      ∀ c, c < z.mn → num z s' c c ≠ 0) ∧
    (infov s' ≠ 0 → infov s' ≤ z.mn ∧ FailAt z.M (num z s) (infov s' - 1)) := by
  unfold phases at hs'
  rw [phasesRun_append] at hs'
  have hO := outer_loop h hmag hdv big s h0
  generalize phasesRun z.size ((blocks z).flatMap fun k =>
      ((List.range' k (z.kb k)).flatMap fun j => [searchT z mag j, pivotT z mag k j, updateT z dv big k j]) ++
      [rightT z dv k, gemmT z k]) s = s1 at hO hs'
  simp only [phasesRun_cons, phasesRun_nil] at hs'
  obtain ⟨l1, l2, l3⟩ := left_eff h s1
  rw [← hs'] at l1 l2 l3
  have hM := z.mn_M
  refine ⟨?_, ?_⟩
  · intro hi
    obtain ⟨hp, hL, hd⟩ := hO.ok (by rw [← l2, hi])
    have hpr : ∀ i, i < z.mn → prow z s1 0 i = pivv s1 i - 1 := fun i hi =>
      Cfg.clamp_of (hp i hi).2.1 (hp i hi).2.2
    have hnum : ∀ r c, r < z.M → num z s' r c = lazyM (fun i => pivv s1 i - 1) (lzi z.ib) z.mn (num z s1) r c := by
      intro r c hr
      rw [l3]
      unfold lazyM
      by_cases hc : c < z.mn
      · rw [if_pos hc]
        by_cases hz : lzi z.ib c < z.mn
        · rw [if_pos ⟨hr, hc, hz⟩]
          show num z s1 (perm _ (lzi z.ib c) (z.mn - lzi z.ib c) r) c = _
          rw [perm_congr (fun i _ a2 => hpr i (by omega))]
        · rw [if_neg (fun hh => hz hh.2.2), Nat.sub_eq_zero_of_le (by omega)]
          rfl
      · rw [if_neg hc, if_neg (fun hh => hc hh.2.1)]
    rw [l1]
    refine ⟨hp, ?_, ?_⟩
    · intro r c hr hc
      have := (hL.congr hM (fun r c a _ => (hnum r c a).symm)).done (le_refl _) hr hc
      exact this
    · intro c hc
      rw [hnum c c (by omega), lazyM_diag (fun i hi => (hp i hi).2.1) (lt_lzi h.ib)]
      exact hd c hc
  · intro hi
    rw [l2] at hi ⊢
    exact hO.bad hi

end Verif.Panel

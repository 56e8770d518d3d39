/-
Properties of the singular value routine without vectors: C74.
-/
import Verif.Svd
import Verif.Ge2gbReal
import Verif.Props.Gesdd
import Verif.Props.Bidiag

namespace Verif.Props

open Verif.Layout Verif.Tile Verif.Tree Verif.Qr Verif.Fact Verif.Bulge Verif.Svd Matrix

universe v

set_option linter.unusedSectionVars false

section
variable {𝕜 : Type v} [RCLike 𝕜]

/-- Memory when the tasks start: the band array has been cleared (compute/zgesdd.c:407,456-462). -/
def sdStart (nb m n : Nat) (mem : Buf × Nat → 𝕜) : Buf × Nat → 𝕜 := fun l =>
  if l.1 = .usr 2 ∧ l.2 < (3 * nb + 1) * min m n then 0 else mem l

/-- Tasks that copy `A` back (compute/zgesdd.c:234-239). -/
noncomputable def sdBack (𝕜 : Type v) [RCLike 𝕜] (nb m n : Nat) : List (TTask (Buf × Nat × Nat) 𝕜) :=
  copyK none (sdA nb m n) (sdA nb m n) (uVw nb (sdDims m n) (sdDims m n) 0)

/-- A call of `plasma_zgesdd` without vectors and with valid arguments, `nb ≤ min(m,n)`, all allocations successful
(compute/zgesdd.c:221-246, 404-587): memory `mem` becomes `mem'` and `S` is returned.
`mem1`: after the reduction to band form.  `cm`, `cm'`: memory of the bulge chasing before and after, `TAUQ` and `TAUP` cleared
(compute/zgesdd.c:520-532, 551-563).  `LAPACKE_dbdsdc` is not modelled: by contract it returns the singular values of the
bidiagonal matrix in decreasing order (compute/zgesdd.c:578-587). -/
structure SvdRun (K : QrKern 𝕜) (ib nb m n lda cores : Nat) (mem mem' : Buf × Nat → 𝕜) (S : Nat → ℝ)
    (mem1 : Buf × Nat → 𝕜) (cm cm' : CM × Nat → 𝕜) : Prop where
  reduce : Exec (sdEnv ib nb m n lda) (sdReduce K ib nb m n) (sdStart nb m n mem) mem1
  band : ∀ x, x < (3 * nb + 1) * min m n → cm (.a, x) = mem1 (.usr 2, x)
  tq : ∀ x, x < 2 * min m n → cm (.tq, x) = 0
  tp : ∀ x, x < 2 * min m n → cm (.tp, x) = 0
  chase : ChaseExec (sdUp m n) (min m n) nb cores cm cm'
  bdsdc : ∀ i, i < min m n →
    S i = sval (bidiag ℝ (sdUp m n) (min m n) (brdD (sdUp m n) nb cm') (brdE (sdUp m n) nb cm')) i
  back : Exec (sdEnv ib nb m n lda) (sdBack 𝕜 nb m n) mem1 mem'

variable {ib nb m n lda cores : Nat} {K : QrKern 𝕜} {mem mem' mem1 : Buf × Nat → 𝕜} {S : Nat → ℝ} {cm cm' : CM × Nat → 𝕜}

theorem band_iff {up : Bool} {nb r c : Nat} : BandP up nb r c ↔ BrdBand up nb r c := by
  unfold BandP BrdBand UBand LBand
  cases up <;> simp

theorem addr_lt {up : Bool} {n nb r c : Nat} (hr : r < n) (hc : c < n)
    (h : if up then c ≤ r + 2 * nb ∧ r ≤ c + nb else r ≤ c + 2 * nb ∧ c ≤ r + nb) : bandAddr up nb r c < (3 * nb + 1) * n :=
  chase_bound (up := up) (n := n) (nb := nb) (x := CM.a) (i := r) (j := c) ⟨hr, hc, h⟩

/-- The first element is real after the reduction. -/
theorem sdReduce_re0 (hR : KReal K) (hK : QrSpec K) (hnb : 0 < nb) (hib : 0 < ib) (hlda : m ≤ lda) (hm : 0 < m) (hn : 0 < n)
    (h : Exec (sdEnv ib nb m n lda) (sdReduce K ib nb m n) mem mem') :
    star (mem' (.usr 2, bandAddr (sdUp m n) nb 0 0)) = mem' (.usr 2, bandAddr (sdUp m n) nb 0 0) := by
  have hwf := sdEnv_wf (n := n) hnb hib hlda
  have hg := sdReduce_good (m := m) (n := n) (lda := lda) hK hnb hib
  have hcor := Exec.correct hwf hg.loc hg.ins (tcovered_of_declared hg.decl) h
  set s0 := view (eloc (sdEnv ib nb m n lda)) mem with hs0
  set s1 := texec (copyK none (sdA nb m n) (uVw nb (sdDims m n) (sdDims m n) 0) (sdA nb m n)) s0 with hs1
  have hB : BandP (sdUp m n) nb 0 0 := band_iff.mpr (by unfold BrdBand; cases sdUp m n <;> simp)
  have hv : evalid (sdEnv ib nb m n lda) ((sdBand nb m n).at' (0 / nb) (0 / nb)) (0 % nb) (0 % nb) := by
    rw [Nat.zero_div, Nat.zero_mod]
    refine sdBand_valid 0 0 0 0 ?_ ?_ hnb hnb ?_
    · show 0 * nb + 0 < min m n; omega
    · show 0 * nb + 0 < min m n; omega
    · rw [Nat.zero_mul]; exact hB
  have h1 := hcor.1 _ _ _ hv
  have h2 : (sdBand nb m n).el (view (eloc (sdEnv ib nb m n lda)) mem') 0 0 =
      (sdBand nb m n).el (texec (sdReduce K ib nb m n) s0) 0 0 := h1
  rw [sdBand_view] at h2
  unfold sdReduce at h2
  rw [texec_append, texec_append, ← hs1, bandCpy_el (b := nb) (sdUp m n) (sd_al hnb) (sdBand_al hnb) (by intro h; cases h) _
    (r := 0) (c := 0) hm hn hn hm, mask_pos hB, mask_neg (fun h => h hB), add_zero] at h2
  have hT : (qrT none ib nb m n).id ≠ (sdA nb m n).id := by intro h; cases h
  have h3 := ge2gb_re0 (A := sdA nb m n) (T := qrT none ib nb m n) hR hib (sd_al hnb) hT rfl hm hn s1
  rw [h2]
  have e : (sdA nb m n).el (texec (pzge2gb K (sdA nb m n) (qrT none ib nb m n)) s1) 0 0 =
      texec (pzge2gb K (sdA nb m n) (qrT none ib nb m n)) s1 ((sdA nb m n).at' 0 0) 0 0 := by
    show texec _ s1 ((sdA nb m n).at' (0 / nb) (0 / nb)) (0 % nb) (0 % nb) = _
    rw [Nat.zero_div, Nat.zero_mod]
  rw [e]
  exact h3

/-- The band array holds what the bulge chasing expects. -/
theorem SvdRun.chaseIn (hK : QrSpec K) (hnb : 0 < nb) (hib : 0 < ib) (hlda : m ≤ lda)
    (h : SvdRun K ib nb m n lda cores mem mem' S mem1 cm cm') : ChaseIn (sdUp m n) (min m n) nb cm := by
  refine ⟨fun r c hr hc hw hb => ?_, fun _ => h.tq, fun _ => h.tp⟩
  rw [h.band _ (addr_lt hr hc hw), (sdReduce_spec hK hnb hib hlda h.reduce).2.1]
  · unfold sdStart
    rw [if_pos ⟨rfl, addr_lt hr hc hw⟩]
  · intro r' c' hr' hc' hb' e
    have hv' := valid_band (n := min m n) (band_iff.mp hb') hr' hc'
    have := chase_inj (up := sdUp m n) (n := min m n) (nb := nb) CM.a r c CM.a r' c' ⟨hr, hc, hw⟩ hv' (congrArg (Prod.mk CM.a) e)
    obtain ⟨-, rfl, rfl⟩ := this
    exact hb (band_iff.mp hb')

theorem bidiag_map {up : Bool} {n : Nat} {D E : Nat → ℝ} : bidiag 𝕜 up n D E = (bidiag ℝ up n D E).map (RCLike.ofReal : ℝ → 𝕜) := by
  ext r c
  unfold bidiag
  rw [map_apply, of_apply, of_apply]
  split_ifs <;> simp

theorem SvdRun.sval_band (h : SvdRun K ib nb m n lda cores mem mem' S mem1 cm cm') {i : Nat} (hi : i < min m n) :
    sval (bandMat mem1 nb m n) i = sval (bandOf (sdUp m n) (min m n) nb cm) i := by
  have hcm : ∀ r c, r < min m n → c < min m n → BandP (sdUp m n) nb r c →
      cm (.a, bandAddr (sdUp m n) nb r c) = mem1 (.usr 2, bandAddr (sdUp m n) nb r c) := fun r c hr hc hB =>
    h.band _ (addr_lt hr hc (valid_band (n := min m n) (band_iff.mp hB) hr hc).2.2)
  generalize hk : min m n = k at hcm hi
  have hel : ∀ (r : Fin m) (c : Fin n), bandMat mem1 nb m n r c =
      if hr : r.1 < k ∧ c.1 < k then bandOf (sdUp m n) k nb cm ⟨r.1, hr.1⟩ ⟨c.1, hr.2⟩ else 0 := by
    intro r c
    unfold bandMat
    rw [mat_apply]
    by_cases hB : BandP (sdUp m n) nb r c
    · have hlt : r.1 < k ∧ c.1 < k := by
        have hr := r.2
        have hc := c.2
        unfold BandP UBand LBand sdUp at hB
        by_cases h : n ≤ m <;> simp [h] at hB <;> omega
      rw [mask_pos hB, dif_pos hlt]
      unfold bandOf
      rw [of_apply, if_pos (band_iff.mp hB)]
      exact (hcm _ _ hlt.1 hlt.2 hB).symm
    · rw [mask_neg hB]
      split_ifs with hlt
      · unfold bandOf
        rw [of_apply, if_neg fun h => hB (band_iff.mpr h)]
      · rfl
  by_cases hmn : n ≤ m
  · obtain rfl : k = n := by omega
    refine sval_rows hmn (fun r c => ?_) hi
    rw [hel]
    by_cases hr : r.1 < k
    · rw [dif_pos ⟨hr, c.2⟩, dif_pos hr]
    · rw [dif_neg (fun h => hr h.1), dif_neg hr]
  · obtain rfl : k = m := by omega
    refine sval_cols le_rfl (by omega) (fun r c => ?_) hi
    rw [hel]
    by_cases hc : c.1 < k
    · rw [dif_pos ⟨r.2, hc⟩, dif_pos hc]
    · rw [dif_neg (fun h => hc h.2), dif_neg hc]

theorem sdBack_good (hnb : 0 < nb) : Good (evalid (sdEnv ib nb m n lda)) (sdBack 𝕜 nb m n) :=
  copyK_good (sd_al hnb) (stSq_none ..) ((fits_sdA hnb).mono fun _ _ _ => trivial)
    ((fits_sdU hnb).mono fun _ _ _ => trivial) le_rfl le_rfl le_rfl le_rfl

/-- **C74.** Singular values: every execution of `plasma_zgesdd` without vectors, by any number of threads, returns in `S` the
singular values of `A` in decreasing order, each as often as its multiplicity.  Only the elements of `A` are changed. -/
theorem C74_gesdd (hR : KReal K) (hK : QrSpec K) (hnb : 0 < nb) (hib : 0 < ib) (_hmin : nb ≤ min m n) (hlda : m ≤ lda)
    (h : SvdRun K ib nb m n lda cores mem mem' S mem1 cm cm') :
    (∀ i, i < min m n →
      S i = (toEuclideanLin (of fun (r : Fin m) (c : Fin n) => mem (.usr 0, r.1 + c.1 * lda))).singularValues i) ∧
    (∀ i j, i ≤ j → j < min m n → 0 ≤ S j ∧ S j ≤ S i) ∧
    ∀ x, (∀ r c, r < m → c < n → x ≠ r + c * lda) → mem' (.usr 0, x) = mem (.usr 0, x) := by
  have hm : 0 < m := by omega
  have hn : 0 < n := by omega
  obtain ⟨hu, -, hA⟩ := sdReduce_spec hK hnb hib hlda h.reduce
  have e0 : ∀ i, i < min m n → sval (uArr (sdStart nb m n mem) 0 lda m n) i = S i := by
    intro i hi
    rw [sval_ueq hu (by omega), h.sval_band hi, h.bdsdc i hi]
    have h00 := sdReduce_re0 hR hK hnb hib hlda hm hn h.reduce
    have hin := h.chaseIn hK hnb hib hlda
    have hw : if sdUp m n = true then (0:Nat) ≤ 0 + 2 * nb ∧ 0 ≤ 0 + nb else 0 ≤ 0 + 2 * nb ∧ 0 ≤ 0 + nb := by
      cases sdUp m n <;> simp
    rw [← h.band _ (addr_lt (by omega) (by omega) hw)] at h00
    have hde := C73_DE (by omega) hnb hin h00 h.chase
    rw [sval_ueq hde hi, bidiag_map, sval_real _ hi]
  refine ⟨fun i hi => (e0 i hi).symm, fun i j hij hj => ?_, fun x hx => ?_⟩
  · rw [← e0 j hj, ← e0 i (by omega)]
    exact ⟨sval_nonneg _ _, sval_anti _ hij⟩
  · have h1 := hA x
    have h2 : sdStart nb m n mem (.usr 0, x) = mem (.usr 0, x) := by
      unfold sdStart
      rw [if_neg (by simp)]
    rw [← h2, ← h1]
    have hg := sdBack_good (𝕜 := 𝕜) (ib := ib) (m := m) (n := n) (lda := lda) hnb
    refine (Exec.correct (sdEnv_wf (n := n) hnb hib hlda) hg.loc hg.ins (tcovered_of_declared hg.decl) h.back).2 _ ?_
    rintro t ht ⟨a, p, q⟩ i j hw he
    obtain ⟨p', q', e, hi, hj⟩ := copyK_writesE (sd_al hnb) t ht _ i j hw
    have ha : a = .usr 0 := congrArg Prod.fst he
    subst ha
    have e : (Buf.usr 0, p, q) = (Buf.usr 0, p' + 0 / nb, q' + 0 / nb) := e
    rw [Nat.zero_div] at e
    cases e
    have hi : i < tdim m nb p' := hi
    have hj : j < tdim n nb q' := hj
    unfold tdim at hi hj
    have he2 : (sdEnv ib nb m n lda (.usr 0)).off p' q' i j = x := congrArg Prod.snd he
    rw [MatEnv.off_lapack (l := lda) rfl] at he2
    have he2 : p' * nb + i + lda * (q' * nb + j) = x := he2
    rw [Nat.mul_comm lda] at he2
    exact hx (p' * nb + i) (q' * nb + j) (by omega) (by omega) he2.symm

/-- The modelled kernels (`zgeqrt`, `ztsqrt` and so on as they are written in core_blas) meet the hypotheses on the kernels. -/
theorem C74_kernels : KReal (lkern : QrKern 𝕜) ∧ QrSpec (lkern : QrKern 𝕜) := ⟨lkern_real, lkern_spec⟩

/-- Runs exist, for every matrix. -/
theorem C74_exists (hK : QrSpec K) (hnb : 0 < nb) (hib : 0 < ib) (hmin : 2 ≤ min m n) (hlda : m ≤ lda) (mem : Buf × Nat → 𝕜) :
    ∃ mem' S mem1 cm cm', SvdRun K ib nb m n lda cores mem mem' S mem1 cm cm' := by
  obtain ⟨mem1, h1⟩ := sdReduce_exists hK hnb hib hlda (sdStart nb m n mem)
  obtain ⟨cm', h2⟩ := C72_exists (up := sdUp m n) (n := min m n) (nb := nb) (cores := cores) hmin hnb
    (fun l => if l.1 = .a then mem1 (.usr 2, l.2) else 0)
  have hg := sdBack_good (𝕜 := 𝕜) (ib := ib) (m := m) (n := n) (lda := lda) hnb
  obtain ⟨mem', h3⟩ := Exec.exists (sdEnv_wf (n := n) hnb hib hlda) hg.loc hg.ins mem1
  exact ⟨mem', fun i => sval (bidiag ℝ (sdUp m n) (min m n) (brdD (sdUp m n) nb cm') (brdE (sdUp m n) nb cm')) i, mem1, _, cm',
    ⟨h1, fun x _ => by simp, fun x _ => by simp, fun x _ => by simp, h2, fun _ _ => rfl, h3⟩⟩

end

/-- The hypotheses are met: a 7 by 5 and a 5 by 7 matrix, not zero, with `nb = 2` and three threads. -/
example : ∃ mem mem' mem1 : Buf × Nat → ℂ, ∃ S cm cm', mem (.usr 0, 3) ≠ 0 ∧ SvdRun lkern 1 2 7 5 8 3 mem mem' S mem1 cm cm' := by
  obtain ⟨mem', S, mem1, cm, cm', h⟩ := C74_exists (lkern_spec (𝕜 := ℂ)) (ib := 1) (nb := 2) (m := 7) (n := 5) (lda := 8) (cores := 3)
    (by omega) (by omega) (by omega) (by omega) (fun x => if x.1 = .usr 0 then 1 else 0)
  exact ⟨_, mem', mem1, S, cm, cm', by simp, h⟩

example : KReal (lkern : QrKern ℂ) ∧ QrSpec (lkern : QrKern ℂ) ∧ ∃ mem mem' mem1 : Buf × Nat → ℂ, ∃ S cm cm', mem (.usr 0, 3) ≠ 0 ∧
    SvdRun lkern 1 2 5 7 8 3 mem mem' S mem1 cm cm' := by
  obtain ⟨mem', S, mem1, cm, cm', h⟩ := C74_exists (lkern_spec (𝕜 := ℂ)) (ib := 1) (nb := 2) (m := 5) (n := 7) (lda := 8) (cores := 3)
    (by omega) (by omega) (by omega) (by omega) (fun x => if x.1 = .usr 0 then 1 else 0)
  exact ⟨lkern_real, lkern_spec, _, mem', mem1, S, cm, cm', by simp, h⟩

end Verif.Props

/-
Properties of the singular value routine, first stage: reduction to band form, C71.
-/
import Verif.Ge2gbGood
import Verif.Props.Qr
import Mathlib.Tactic.Ring

namespace Verif.Props

open Verif.Layout Verif.Tile Verif.Tree Verif.Qr Verif.Fact Finset Matrix

universe v

set_option linter.unusedSectionVars false

/-- `uplo == PlasmaUpper` of the band (compute/zgesdd.c:400). -/
def sdUp (m n : Nat) : Bool := decide (n ≤ m)

/-- Address of element `(r, c)` of the band in `pA_band`, leading dimension `lda_band = 3*nb+1`: the upper band starts in
row `nb` of the array, the lower band in row `nb` too (compute/zgesdd.c:407,447-456, include/bulge.h). -/
def bandAddr (up : Bool) (nb r c : Nat) : Nat := (if up then 2 * nb else nb) + r + c * (3 * nb + 1) - c

/-- Memory of `plasma_zgesdd`: user array 0 is `A`, 1 is `T`, 2 is the band array `pA_band` (`nb` diagonals on one side of the
band, `2*nb` on the other side are inside the array), `til 0` is `A` in tile layout. -/
def sdEnv (ib nb m n lda : Nat) : Buf → MatEnv
  | .usr 0 => ⟨.lapack lda, nb, nb, m, n⟩
  | .usr 1 => ⟨.tile, ib, nb, (qrT none ib nb m n).d.m, (qrT none ib nb m n).d.n⟩
  | .usr 2 => ⟨.lband (3 * nb + 1) (if sdUp m n then nb else 2 * nb) (if sdUp m n then 2 * nb else nb)
      (if sdUp m n then 2 * nb else nb), nb, nb, min m n, min m n⟩
  | .usr _ => ⟨.tile, nb, nb, 0, 0⟩
  | .til _ => ⟨.tile, nb, nb, m, n⟩

/-- Dimensions of `A`. -/
def sdDims (m n : Nat) (_ : Nat) : Nat × Nat := (m, n)

/-- `A` in tile layout. -/
def sdA (nb m n : Nat) : TMat Buf := tVw nb (sdDims m n) (sdDims m n) 0

/-- The band array cut into tiles. -/
def sdBand (nb m n : Nat) : TMat Buf := ⟨.usr 2, general nb nb (min m n) (min m n) 0 0 (min m n) (min m n)⟩

section
variable {α : Type v} [CommRing α] [StarRing α]

/-- Tasks created by `plasma_zgesdd` (compute/zgesdd.c:222-228) and by `plasma_omp_zgesdd` up to the copy of the band
(compute/zgesdd.c:474-483) for valid arguments.  The two parallel regions are not separated: executions that let them
overlap are covered too. -/
noncomputable def sdReduce (K : QrKern α) (ib nb m n : Nat) : List (TTask (Buf × Nat × Nat) α) :=
  copyK none (sdA nb m n) (uVw nb (sdDims m n) (sdDims m n) 0) (sdA nb m n) ++
  (pzge2gb K (sdA nb m n) (qrT none ib nb m n) ++ bandCpy (sdUp m n) (sdA nb m n) (sdBand nb m n))

/-- The band matrix held by the band array. -/
noncomputable def bandMat (mem : Buf × Nat → α) (nb m n : Nat) : Matrix (Fin m) (Fin n) α :=
  mat m n (mask (BandP (sdUp m n) nb) fun r c => mem (.usr 2, bandAddr (sdUp m n) nb r c))

variable {ib nb m n lda : Nat} {K : QrKern α}

theorem sdEnv_wf (hnb : 0 < nb) (hib : 0 < ib) (hlda : m ≤ lda) : ∀ a, (sdEnv ib nb m n lda a).WF := by
  intro a
  rcases a with k | k
  · rcases k with _ | _ | _ | k
    · exact ⟨hnb, hnb, by simp [sdEnv, hlda], by simp [sdEnv], by simp [sdEnv]⟩
    · exact ⟨hib, hnb, by simp [sdEnv], by simp [sdEnv], by simp [sdEnv]⟩
    · refine ⟨hnb, hnb, by simp [sdEnv], by simp [sdEnv], ?_⟩
      intro l kl ku off h
      simp only [sdEnv, Kind.lband.injEq] at h
      obtain ⟨rfl, rfl, rfl, rfl⟩ := h
      split <;> omega
    · exact ⟨hnb, hnb, by simp [sdEnv], by simp [sdEnv], by simp [sdEnv]⟩
  · exact ⟨hnb, hnb, by simp [sdEnv], by simp [sdEnv], by simp [sdEnv]⟩

theorem fits_sdA (hnb : 0 < nb) : Fits (sdEnv ib nb m n lda) nb (sdA nb m n) where
  al := al_tVw hnb 0
  mb := rfl
  nb := rfl
  rows := by simp [sdA, tVw, sdEnv, general, sdDims]
  cols := by simp [sdA, tVw, sdEnv, general, sdDims]
  st := fun _ _ _ _ _ => trivial

theorem fits_sdU (hnb : 0 < nb) : Fits (sdEnv ib nb m n lda) nb (uVw nb (sdDims m n) (sdDims m n) 0) where
  al := al_uVw hnb 0
  mb := rfl
  nb := rfl
  rows := by simp [uVw, sdEnv, general, sdDims]
  cols := by simp [uVw, sdEnv, general, sdDims]
  st := fun _ _ _ _ _ => trivial

theorem sd_al (hnb : 0 < nb) : (sdA nb m n).Al nb := al_tVw hnb 0

theorem sdBand_al (hnb : 0 < nb) : (sdBand nb m n).Al nb := by
  unfold sdBand
  exact al_vw hnb _ _ _ _ _

theorem sdT_valid (hnb : 0 < nb) :
    TV (evalid (sdEnv ib nb m n lda)) (qrT none ib nb m n).d.mb nb (sdA nb m n) (qrT none ib nb m n) := by
  intro r c hr hc i j hi hj
  rw [(sd_al hnb).mt_eq] at hr
  rw [(sd_al hnb).nt_eq] at hc
  have hr : r < ceilDiv m nb := hr
  have hc : c < ceilDiv n nb := hc
  have em : (general nb nb m n 0 0 m n).mt = ceilDiv m nb := by
    show ntiles 0 m nb = _
    rw [ntiles_zero _ _ hnb]
  have en : (general nb nb m n 0 0 m n).nt = ceilDiv n nb := by
    show ntiles 0 n nb = _
    rw [ntiles_zero _ _ hnb]
  refine ⟨?_, trivial⟩
  show TileOK ib nb _ _ (r + 0 / _) (c + 0 / _) i j
  rw [Nat.zero_div, Nat.zero_div, Nat.add_zero, Nat.add_zero, tileOK_iff]
  show i < ib ∧ r * ib + i < (general nb nb m n 0 0 m n).mt * ib ∧ j < nb ∧ c * nb + j < (general nb nb m n 0 0 m n).nt * nb
  rw [em, en]
  have h1 : (r + 1) * ib ≤ ceilDiv m nb * ib := Nat.mul_le_mul_right _ hr
  have h2 : (c + 1) * nb ≤ ceilDiv n nb * nb := Nat.mul_le_mul_right _ hc
  rw [Nat.add_mul] at h1 h2
  have hi : i < ib := hi
  omega

theorem sdUp_spec : if sdUp m n then (sdA nb m n).d.n ≤ (sdA nb m n).d.m else (sdA nb m n).d.m ≤ (sdA nb m n).d.n := by
  unfold sdUp
  by_cases h : n ≤ m
  · rw [decide_eq_true h, if_pos rfl]; exact h
  · rw [decide_eq_false h, if_neg (by decide)]; show m ≤ n; omega

theorem sdBand_valid : BandV (evalid (sdEnv ib nb m n lda)) (sdUp m n) nb (sdA nb m n) (sdBand nb m n) := by
  intro p q i j h1 h2 hi hj hB
  refine ⟨?_, ?_⟩
  · show TileOK nb nb (min m n) (min m n) (p + 0 / _) (q + 0 / _) i j
    rw [Nat.zero_div, Nat.zero_div, Nat.add_zero, Nat.add_zero, tileOK_iff]
    exact ⟨hi, h1, hj, h2⟩
  · show (q + 0 / _) * nb + j ≤ (if sdUp m n then 2 * nb else nb) + ((p + 0 / _) * nb + i) ∧
      (p + 0 / _) * nb + i ≤ (if sdUp m n then nb else 2 * nb) + ((q + 0 / _) * nb + j)
    rw [Nat.zero_div, Nat.zero_div, Nat.add_zero, Nat.add_zero]
    unfold BandP UBand LBand at hB
    cases h : sdUp m n <;> rw [h] at hB <;> simp at hB ⊢ <;> omega

theorem sdReduce_good (hK : QrSpec K) (hnb : 0 < nb) (hib : 0 < ib) :
    Good (evalid (sdEnv ib nb m n lda)) (sdReduce K ib nb m n) := by
  have vA : TilesV (evalid (sdEnv ib nb m n lda)) nb (sdA nb m n) := fun p q i j hi hj => (fits_sdA hnb).valid hi hj
  refine (copyK_good (sd_al hnb) (stSq_none ..) ((fits_sdU hnb).mono fun _ _ _ => trivial)
    ((fits_sdA hnb).mono fun _ _ _ => trivial) le_rfl le_rfl le_rfl le_rfl).append ((pzge2gb_good hK (sd_al hnb) ?_ vA
      (sdT_valid hnb) hib hnb).append (bandCpy_good _ (sd_al hnb) sdUp_spec vA sdBand_valid))
  intro h; cases h

theorem bandAddr_off {p q i j : Nat} : (sdEnv ib nb m n lda (.usr 2)).off p q i j =
    bandAddr (sdUp m n) nb (p * nb + i) (q * nb + j) := by
  show (if sdUp m n then 2 * nb else nb) + (p * nb + i) + (q * nb + j) * (3 * nb + 1) - (q * nb + j) = _
  rfl

theorem sdBand_view (mem : Buf × Nat → α) (r c : Nat) :
    (sdBand nb m n).el (view (eloc (sdEnv ib nb m n lda)) mem) r c = mem (.usr 2, bandAddr (sdUp m n) nb r c) := by
  show mem (.usr 2, (sdEnv ib nb m n lda (.usr 2)).off (r / nb + 0 / nb) (c / nb + 0 / nb) (r % nb) (c % nb)) = _
  rw [bandAddr_off, Nat.zero_div, Nat.add_zero, Nat.add_zero, Nat.mul_comm, Nat.div_add_mod, Nat.mul_comm, Nat.div_add_mod]

theorem sdA_in (hnb : 0 < nb) (s : Store (Buf × Nat × Nat) α) {r c : Nat} (hr : r < m) (hc : c < n) :
    (sdA nb m n).el (texec (copyK none (sdA nb m n) (uVw nb (sdDims m n) (sdDims m n) 0) (sdA nb m n)) s) r c =
      (uVw nb (sdDims m n) (sdDims m n) 0).el s r c :=
  copyK_el (st := none) (sd_al hnb) (al_uVw hnb 0) (sd_al hnb) (stSq_none ..) (by simp [uVw, sdA, tVw]) s hr hc trivial

theorem sd_writes (hnb : 0 < nb) : Writes (fun t => t.1 ≠ .usr 0) (sdReduce K ib nb m n) := by
  refine Writes.append ?_ (Writes.append ?_ ?_)
  · refine Writes.mono (copyK_writes (stSq_none ..)) ?_
    rintro t ⟨m, n, rfl, -⟩ h; cases h
  · refine Writes.mono (pzge2gb_writes (sd_al hnb)) ?_
    rintro t (h | h) e <;> rw [e] at h <;> cases h
  · refine Writes.mono (bandCpy_writes _) ?_
    rintro t h e; rw [e] at h; cases h

/-- Effect of the reduction, for every execution. -/
theorem sdReduce_spec (hK : QrSpec K) (hnb : 0 < nb) (hib : 0 < ib) (hlda : m ≤ lda) {mem mem' : Buf × Nat → α}
    (h : Exec (sdEnv ib nb m n lda) (sdReduce K ib nb m n) mem mem') :
    UEq (uArr mem 0 lda m n) (bandMat mem' nb m n) ∧
    (∀ x, (∀ r c, r < min m n → c < min m n → BandP (sdUp m n) nb r c → x ≠ bandAddr (sdUp m n) nb r c) →
      mem' (.usr 2, x) = mem (.usr 2, x)) ∧
    ∀ x, mem' (.usr 0, x) = mem (.usr 0, x) := by
  have hwf := sdEnv_wf (n := n) hnb hib hlda
  have hg := sdReduce_good (m := m) (n := n) (lda := lda) hK hnb hib
  have hcor := Exec.correct hwf hg.loc hg.ins (tcovered_of_declared hg.decl) h
  refine ⟨?_, ?_, fun x => Exec.frame_buf hwf hg h (sd_writes hnb) x⟩
  · set s0 := view (eloc (sdEnv ib nb m n lda)) mem with hs0
    set s1 := texec (copyK none (sdA nb m n) (uVw nb (sdDims m n) (sdDims m n) 0) (sdA nb m n)) s0 with hs1
    set s2 := texec (pzge2gb K (sdA nb m n) (qrT none ib nb m n)) s1 with hs2
    have e0 : uArr mem 0 lda m n = mat m n ((sdA nb m n).el s1) := by
      ext ⟨r, hr⟩ ⟨c, hc⟩
      show mem (.usr 0, r + c * lda) = (sdA nb m n).el s1 r c
      rw [hs1, sdA_in hnb s0 hr hc, hs0,
        ← el_view_lapack (env := sdEnv ib nb m n lda) (id := .usr 0) (b := nb) (m := m) (n := n) hnb rfl mem r c]
      rfl
    have e1 : bandMat mem' nb m n = mat m n (mask (BandP (sdUp m n) nb) ((sdA nb m n).el s2)) := by
      ext ⟨r, hr⟩ ⟨c, hc⟩
      rw [bandMat, mat_apply, mat_apply]
      refine mask_congr (α := α) (X := fun r c => mem' (.usr 2, bandAddr (sdUp m n) nb r c)) Iff.rfl fun hB => ?_
      have hlt : r < min m n ∧ c < min m n := by
        unfold BandP UBand LBand sdUp at hB
        by_cases h : n ≤ m <;> simp [h] at hB <;> omega
      have hv : evalid (sdEnv ib nb m n lda) ((sdBand nb m n).at' (r / nb) (c / nb)) (r % nb) (c % nb) := by
        have d1 : r / nb * nb + r % nb = r := by rw [Nat.mul_comm, Nat.div_add_mod]
        have d2 : c / nb * nb + c % nb = c := by rw [Nat.mul_comm, Nat.div_add_mod]
        refine sdBand_valid _ _ _ _ ?_ ?_ (Nat.mod_lt _ hnb) (Nat.mod_lt _ hnb) ?_
        · rw [d1]; exact hlt.1
        · rw [d2]; exact hlt.2
        · rw [d1, d2]; exact hB
      have h1 := hcor.1 _ _ _ hv
      rw [← sdBand_view (ib := ib) (m := m) (n := n) (lda := lda) mem' r c]
      have h2 : (sdBand nb m n).el (view (eloc (sdEnv ib nb m n lda)) mem') r c =
          (sdBand nb m n).el (texec (sdReduce K ib nb m n) s0) r c := h1
      rw [h2]
      unfold sdReduce
      rw [texec_append, texec_append, ← hs1, ← hs2, bandCpy_el (b := nb) (sdUp m n) (sd_al hnb) (sdBand_al hnb) (by intro h; cases h) s2
        hr hc (hlt.1.trans_le (min_le_right _ _)) (hlt.2.trans_le (min_le_left _ _)), mask_pos hB, mask_neg (fun h => h hB), add_zero]
    rw [e0, e1]
    have hT : (qrT none ib nb m n).id ≠ (sdA nb m n).id := by intro h; cases h
    by_cases hmn : n ≤ m
    · have := ge2gb_tall (T := qrT none ib nb m n) hK hib (sd_al (m := m) (n := n) hnb) hT rfl hmn s1
      have e : BandP (sdUp m n) nb = UBand nb := by
        funext r c; unfold BandP sdUp; rw [decide_eq_true hmn, if_pos rfl]
      rw [e]
      exact this
    · have := ge2gb_wide (T := qrT none ib nb m n) hK hib (sd_al (m := m) (n := n) hnb) hT rfl (Nat.lt_of_not_le hmn) s1
      have e : BandP (sdUp m n) nb = LBand nb := by
        funext r c; unfold BandP sdUp; rw [decide_eq_false hmn, if_neg (by decide)]
      rw [e]
      exact this
  · intro x hx
    apply hcor.2
    rintro t ht ⟨a, p, q⟩ i j hw he
    have ha : a = .usr 2 := congrArg Prod.fst he
    subst ha
    unfold sdReduce at ht
    rcases List.mem_append.mp ht with ht | ht
    · obtain ⟨m', n', e, -⟩ := copyK_writes (stSq_none ..) t ht _ i j hw
      cases e
    rcases List.mem_append.mp ht with ht | ht
    · rcases pzge2gb_writes (sd_al hnb) t ht _ i j hw with e | e <;> cases e
    · obtain ⟨p', q', e, h1, h2, h3, h4, h5⟩ := bandCpy_writesE _ (sd_al hnb) sdUp_spec t ht _ i j hw
      have e : (Buf.usr 2, p, q) = (Buf.usr 2, p' + 0 / nb, q' + 0 / nb) := e
      rw [Nat.zero_div] at e
      cases e
      refine hx _ _ h1 h2 h5 ?_
      rw [← bandAddr_off (ib := ib) (lda := lda)]
      exact (congrArg Prod.snd he).symm

theorem sdReduce_exists (hK : QrSpec K) (hnb : 0 < nb) (hib : 0 < ib) (hlda : m ≤ lda) (mem : Buf × Nat → α) :
    ∃ mem', Exec (sdEnv ib nb m n lda) (sdReduce K ib nb m n) mem mem' :=
  Exec.exists (sdEnv_wf hnb hib hlda) (sdReduce_good (lda := lda) hK hnb hib).loc (sdReduce_good (lda := lda) hK hnb hib).ins mem

end

section
variable {𝕜 : Type v} [RCLike 𝕜] {ib nb m n lda : Nat} {K : QrKern 𝕜}

theorem sd_views (hnb : 0 < nb) {k : Nat} (hk : k < ceilDiv m nb) (hk' : k < ceilDiv n nb) :
    Ge2gbViews (sdA nb m n).d (qrT none ib nb m n).d k := by
  have em : (general nb nb m n 0 0 m n).mt = ceilDiv m nb := by
    show ntiles 0 m nb = _
    rw [ntiles_zero _ _ hnb]
  have en : (general nb nb m n 0 0 m n).nt = ceilDiv n nb := by
    show ntiles 0 n nb = _
    rw [ntiles_zero _ _ hnb]
  refine ge2gb_views (sd_al hnb) ⟨by simp [sdA, tVw, sdDims, general], by simp [sdA, tVw, sdDims, general]⟩ ⟨?_, ?_⟩ rfl rfl rfl
    (by rw [(sd_al hnb).mt_eq]; exact hk) (by rw [(sd_al hnb).nt_eq]; exact hk')
  · show 0 + _ ≤ _; rw [Nat.zero_add]; exact le_rfl
  · show 0 + _ ≤ _; rw [Nat.zero_add]; exact le_rfl

/-- **C71.** First stage of `plasma_zgesdd` (jobu = jobvt, `1 ≤ nb ≤ min(m,n)`): for every execution of the tasks there are
unitary `Q` and `P` with `A = Q·B·P`, `B` the band matrix left in `pA_band`: only `nb` diagonals on one side of the main
diagonal are taken from the array.  The array is otherwise still zero, and the user's `A` is untouched so far.  Every
`plasma_desc_view` stays inside its descriptor. -/
theorem C71_gesdd_band (hK : QrSpec K) (hnb : 0 < nb) (hib : 0 < ib) (_hmin : nb ≤ min m n) (hlda : m ≤ lda)
    {mem mem' : Buf × Nat → 𝕜} (hz : ∀ x, mem (.usr 2, x) = 0)
    (h : Exec (sdEnv ib nb m n lda) (sdReduce K ib nb m n) mem mem') :
    (∃ Q ∈ Matrix.unitaryGroup (Fin m) 𝕜, ∃ P ∈ Matrix.unitaryGroup (Fin n) 𝕜, ∃ B : Matrix (Fin m) (Fin n) 𝕜,
      Matrix.of (fun (r : Fin m) (c : Fin n) => mem (.usr 0, r.1 + c.1 * lda)) = Q * B * P ∧
      ∀ r c, B r c = if n ≤ m then
          if r.1 ≤ c.1 ∧ c.1 ≤ r.1 + nb then mem' (.usr 2, 2 * nb + r.1 + c.1 * (3 * nb + 1) - c.1) else 0
        else if c.1 ≤ r.1 ∧ r.1 ≤ c.1 + nb then mem' (.usr 2, nb + r.1 + c.1 * (3 * nb + 1) - c.1) else 0) ∧
    (∀ x, (∀ r c, r < min m n → c < min m n → (if n ≤ m then r ≤ c ∧ c ≤ r + nb else c ≤ r ∧ r ≤ c + nb) →
        x ≠ (if n ≤ m then 2 * nb else nb) + r + c * (3 * nb + 1) - c) → mem' (.usr 2, x) = 0) ∧
    (∀ x, mem' (.usr 0, x) = mem (.usr 0, x)) ∧
    ∀ k, k < ceilDiv m nb → k < ceilDiv n nb → Ge2gbViews (sdA nb m n).d (qrT none ib nb m n).d k := by
  obtain ⟨⟨Q, hQ, P, hP, e⟩, h2, h3⟩ := sdReduce_spec hK hnb hib hlda h
  refine ⟨⟨Q, hQ, P, hP, bandMat mem' nb m n, e, ?_⟩, ?_, h3, fun k hk hk' => sd_views hnb hk hk'⟩
  · intro r c
    unfold bandMat
    rw [mat_apply]
    by_cases hmn : n ≤ m
    · rw [if_pos hmn]
      unfold mask BandP bandAddr sdUp UBand
      simp [hmn]
    · rw [if_neg hmn]
      unfold mask BandP bandAddr sdUp LBand
      simp [hmn]
  · intro x hx
    rw [h2 x ?_, hz]
    intro r c hr hc hB
    have := hx r c hr hc (by unfold BandP UBand LBand sdUp at hB; by_cases hmn : n ≤ m <;> simpa [hmn] using hB)
    intro e
    apply this
    rw [e]
    unfold bandAddr sdUp
    by_cases hmn : n ≤ m <;> simp [hmn]

end

/-- The hypotheses are met: a 7 by 5 and a 5 by 7 matrix, not zero, with `nb = 2`. -/
example : ∃ mem mem' : Buf × Nat → ℂ, mem (.usr 0, 3) ≠ 0 ∧ (∀ x, mem (.usr 2, x) = 0) ∧
    Exec (sdEnv 1 2 7 5 8) (sdReduce lkern 1 2 7 5) mem mem' := by
  obtain ⟨mem', h⟩ := sdReduce_exists (lkern_spec (𝕜 := ℂ)) (ib := 1) (nb := 2) (m := 7) (n := 5) (lda := 8) (by omega) (by omega)
    (by omega) (fun x => if x.1 = .usr 0 then 1 else 0)
  exact ⟨_, mem', by simp, by simp, h⟩

example : ∃ mem mem' : Buf × Nat → ℂ, mem (.usr 0, 3) ≠ 0 ∧ (∀ x, mem (.usr 2, x) = 0) ∧
    Exec (sdEnv 1 2 5 7 8) (sdReduce lkern 1 2 5 7) mem mem' := by
  obtain ⟨mem', h⟩ := sdReduce_exists (lkern_spec (𝕜 := ℂ)) (ib := 1) (nb := 2) (m := 5) (n := 7) (lda := 8) (by omega) (by omega)
    (by omega) (fun x => if x.1 = .usr 0 then 1 else 0)
  exact ⟨_, mem', by simp, by simp, h⟩

/-- Where `plasma_pzgecpy_tile2lapack_band` puts element `(i, k)` of tile `(j, j)` (`sup = false`) or `(j, j+1)`
(`sup = true`) of an upper band, as an index into `pA_band`, when called by `plasma_omp_zgesdd` on a matrix with tile size `mb`:
it is passed `pA_band + nb` with `nb = imin(A.mb, minmn)` (compute/zgesdd.c:404,407,481), and takes `nb = A.mb` itself
(compute/pzgecpy_tile2lapack_band.c:22,46,47,81-92). -/
def copyAt (mb minmn j : Nat) (sup : Bool) (i k : Nat) : Nat :=
  let nb := min mb minmn
  let ldb := 3 * nb + 1
  nb + (if sup then 0 + ldb * ((j + 1) * mb) else mb + ldb * (j * mb)) + i + k * (ldb - 1)

/-- Where the bulge chasing looks for element `(r, c)` of an upper band: `AU(r, c)` with `nb = imin(A.mb, minmn)`
(compute/pzgbbrd_static.c:45, compute/zgesdd.c:568). -/
def chaseAt (mb minmn r c : Nat) : Nat :=
  let nb := min mb minmn
  nb + (3 * nb + 1) * c + (r + nb) - c

/-- **C71, small matrices.** The copy and the bulge chasing agree about the place of the band when the tiles are no larger
than the matrix. -/
theorem C71_band_agree {mb minmn j i k : Nat} {sup : Bool} (h : mb ≤ minmn) (hk : k < mb) (hi : i < mb)
    (hs : sup = false → i ≤ k) (hs' : sup = true → k ≤ i) :
    copyAt mb minmn j sup i k = chaseAt mb minmn (j * mb + i) ((if sup then j + 1 else j) * mb + k) := by
  unfold copyAt chaseAt
  rw [min_eq_left h]
  cases sup
  · have h1 := hs rfl
    simp only [Bool.false_eq_true, ite_false]
    rw [Nat.mul_add, Nat.add_sub_cancel]
    generalize j * mb = z
    have e : (3 * mb + 1) * k = k * (3 * mb) + k := by ring
    have e2 : (3 * mb + 1) * z = (3 * mb) * z + z := by ring
    rw [e, e2]
    generalize k * (3 * mb) = x
    generalize 3 * mb * z = y
    omega
  · have h1 := hs' rfl
    simp only [ite_true]
    rw [Nat.mul_add, Nat.add_sub_cancel]
    have e0 : (j + 1) * mb = j * mb + mb := by ring
    rw [e0]
    generalize j * mb = z
    have e : (3 * mb + 1) * k = k * (3 * mb) + k := by ring
    have e2 : (3 * mb + 1) * (z + mb) = (3 * mb) * (z + mb) + z + mb := by ring
    rw [e, e2]
    generalize k * (3 * mb) = x
    generalize 3 * mb * (z + mb) = y
    omega

example : copyAt 2 5 1 true 1 0 = chaseAt 2 5 3 4 := C71_band_agree (by omega) (by omega) (by omega) (by decide) (by decide)

/-- They disagree for every matrix smaller than one tile: `plasma_omp_zgesdd`, which does not reject such a matrix as
`plasma_zgesdd` does (compute/zgesdd.c:182-185), chases an array that does not hold the band. -/
theorem C71_band_disagree {mb minmn : Nat} (h : minmn < mb) (i k : Nat) :
    copyAt mb minmn 0 false i k = chaseAt mb minmn i k + (mb - minmn) := by
  unfold copyAt chaseAt
  rw [min_eq_right h.le]
  simp only [Bool.false_eq_true, ite_false, Nat.add_sub_cancel, Nat.zero_mul, Nat.mul_zero, Nat.add_zero]
  have e : (3 * minmn + 1) * k = k * (3 * minmn) + k := by ring
  rw [e]
  generalize k * (3 * minmn) = x
  omega

example : copyAt 2 1 0 false 0 0 = 3 ∧ chaseAt 2 1 0 0 = 2 := ⟨by decide, by decide⟩

end Verif.Props

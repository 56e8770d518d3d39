/-
C69: norms of band matrices.  C70: the conversion of band matrices.
-/
import Verif.Props.LangbVal

namespace Verif.Props

open Verif.Layout Verif.Tile Verif.Norm Finset

set_option linter.unusedSectionVars false

universe v

/-! ### Memory and tasks -/

/-- Subdiagonals of the user's band array that the conversion may read: whole tiles of the band, but at most `nb`
more than the band has (core_blas/core_zlacpy_band.c:82-97). -/
def lbKl (nb kl : Nat) : Nat := min (kl + nb) ((kl + nb - 1) / nb * nb + nb - 1)

/-- Memory of `plasma_zlangb` (compute/zlangb.c:126-162): array 0 is `pAB`, array 1 the work array, array 2 the
returned number, tile matrix 0 the band descriptor `AB`. -/
def lbEnv (nb m n kl ku ldab : Nat) (w : Nat × Nat) : Buf → MatEnv
  | .til 0 => ⟨.band (bKut none nb kl ku) (bLmt none nb kl ku), nb, nb, m, n⟩
  | .usr 0 => ⟨.lband ldab (lbKl nb kl) (max (ku + kl) (nb - 1)) (ku + kl), nb, nb, m, n⟩
  | a => drvEnv nb (nmDims m n w (1, 1)) (nmLd 0 w (1, 1)) a

/-- The band descriptor `AB` (compute/zlangb.c:126-133). -/
def langbA (nb m n kl ku : Nat) : TMat Buf := bandR (.til 0) nb (bLmt none nb kl ku * nb) m n kl ku

/-- The array `pAB` of the caller, cut into tiles. -/
def langbU (nb m n : Nat) : TMat Buf := TMat.full (.usr 0) nb m n

section
variable {𝕜 : Type v} [RCLike 𝕜]

/-- Tasks of `plasma_zlangb` (compute/zlangb.c:80-202) for arguments accepted by the checks, when the descriptor
can be created.  The quick return is a task storing 0.  `plasma_omp_zlangb` (compute/zlangb.c:257-306) adds
argument checks only. -/
noncomputable def zlangb (lsq : ℝ × ℝ → List 𝕜 → ℝ × ℝ) (junk : Nat → ℝ) (k : NormK) (nb m n kl ku : Nat) :
    List (TTask (Buf × Nat × Nat) 𝕜) :=
  let A := langbA nb m n kl ku
  let W := uMat nb (nmDims m n (lbWork k A.d) (1, 1)) 1
  let V := uMat nb (nmDims m n (lbWork k A.d) (1, 1)) 2
  if min m n = 0 then
    normP A W V [] (langbBlk lsq junk k A.d) (fun r c => r = 0 ∧ c = 0) (fun _ _ _ => 0)
  else
    pzpb2desc none (langbU nb m n) A ++
    normP A W V (lbTiles A.d).zipIdx (langbBlk lsq junk k A.d) (fun r c => r = 0 ∧ c = 0)
      (fun w _ _ => langbRed k A.d w)

variable {nb m n kl ku ldab : Nat} {w : Nat × Nat}

theorem lb_wf (hnb : 0 < nb) (hld : lbKl nb kl + max (ku + kl) (nb - 1) + 1 ≤ ldab) :
    ∀ a, (lbEnv nb m n kl ku ldab w a).WF := by
  intro a
  unfold lbEnv
  split
  · exact ⟨hnb, hnb, by simp, by simp, by simp⟩
  · refine ⟨hnb, hnb, by simp, by simp, ?_⟩
    intro l kl' ku' off h
    simp only [Kind.lband.injEq] at h
    obtain ⟨rfl, rfl, rfl, rfl⟩ := h
    exact ⟨hld, le_max_left _ _⟩
  · rename_i h1 h2
    unfold drvEnv
    split
    · rename_i k
      refine ⟨hnb, hnb, ?_, by simp, by simp⟩
      intro l hl
      simp only [Kind.lapack.injEq] at hl
      subst hl
      rcases k with _ | _ | _ | k
      · exact absurd rfl h2
      · exact le_rfl
      · exact le_rfl
      · exact le_rfl
    · exact ⟨hnb, hnb, by simp, by simp, by simp⟩

theorem lb_fitsW (hnb : 0 < nb) :
    Fits (lbEnv nb m n kl ku ldab w) nb (uMat nb (nmDims m n w (1, 1)) 1) :=
  fits_full hnb rfl (Or.inr ⟨_, rfl⟩)

theorem lb_fitsV (hnb : 0 < nb) :
    Fits (lbEnv nb m n kl ku ldab w) nb (uMat nb (nmDims m n w (1, 1)) 2) :=
  fits_full hnb rfl (Or.inr ⟨_, rfl⟩)

/-- The tiles visited by the conversion are stored. -/
theorem lb_fitsA (hnb : 0 < nb) :
    FitsOn (lbEnv nb m n kl ku ldab w) nb (bTile none nb kl ku) (langbA nb m n kl ku) where
  al := bandR_al _ hnb _ _ _ _ _
  mb := rfl
  nb := rfl
  rows := by simp [langbA, bandR, general, lbEnv]
  cols := by simp [langbA, bandR, general, lbEnv]
  st := by
    intro m n i j ht
    show n + 0 / nb ≤ (1 + (ku + kl + nb - 1) / nb - 1) + (m + 0 / nb) ∧
      (1 + (ku + kl + nb - 1) / nb - 1) + (m + 0 / nb) - (n + 0 / nb) <
        (ku + kl + nb - 1) / nb + (kl + nb - 1) / nb + 1
    rw [Nat.zero_div, Nat.add_zero, Nat.add_zero]
    have h1 := BPar.lt_bkt (b := nb) (k := ku + kl) (d := n - m) hnb
    have h2 := BPar.lt_bkt (b := nb) (k := kl) (d := m - n) hnb
    rw [Nat.sub_mul] at h1 h2
    simp only [bTile] at ht
    generalize (ku + kl + nb - 1) / nb = x at *
    generalize (kl + nb - 1) / nb = y at *
    generalize m * nb = X at *
    generalize n * nb = Y at *
    omega

theorem lb_vU (hnb : 0 < nb) : ∀ p q i j, bTile none nb kl ku p q → i < tdim m nb p → j < tdim n nb q →
    inB none nb kl ku p q (p * nb + i) (q * nb + j) →
    evalid (lbEnv nb m n kl ku ldab w) ((langbU nb m n).at' p q) i j := by
  intro p q i j ht hi hj hB
  rw [tdim_row] at hi hj
  have e : (langbU nb m n).at' p q = (.usr 0, p, q) := by simp [langbU, TMat.full, TMat.at', general]
  rw [e]
  refine ⟨?_, ?_⟩
  · show TileOK nb nb m n p q i j
    rw [tileOK_iff]
    omega
  · show q * nb + j ≤ max (ku + kl) (nb - 1) + (p * nb + i) ∧ p * nb + i ≤ lbKl nb kl + (q * nb + j)
    have f4 : p < q → p * nb + nb ≤ q * nb := fun h => by
      have := Nat.mul_le_mul_right nb (show p + 1 ≤ q from h)
      rw [Nat.add_mul] at this; omega
    have f5 : q < p → q * nb + nb ≤ p * nb := fun h => by
      have := Nat.mul_le_mul_right nb (show q + 1 ≤ p from h)
      rw [Nat.add_mul] at this; omega
    have f3 : p = q → p * nb = q * nb := fun h => by rw [h]
    have h2 := (BPar.lt_bkt (b := nb) (k := kl) (d := p - q) hnb).mpr (by
      simp only [bTile] at ht
      rw [Nat.sub_mul]; omega)
    have h3 := Nat.mul_le_mul_right nb (Nat.lt_succ_iff.mp (by rw [Nat.add_comm 1] at h2; exact h2))
    rw [Nat.sub_mul] at h3
    simp only [bTile, inB] at ht hB
    unfold lbKl
    generalize (kl + nb - 1) / nb * nb = y at *
    generalize p * nb = X at *
    generalize q * nb = Y at *
    omega

theorem bTile_of_bandTile {b p q : Nat} (h : bandTile b kl ku p q) : bTile none b kl ku p q := by
  simp only [bTile]
  unfold bandTile at h
  omega

theorem normP_loc {A W V : TMat Buf} {env : Buf → MatEnv} {ι : Type} {L : List ι} {blk : ι → Blk 𝕜} {b : Nat}
    {R : Nat → Nat → Prop} {red : (Nat → Nat → ℝ) → Nat → Nat → ℝ} (hB : BlkOK A W L blk)
    (hA : ∀ i ∈ L, ∀ p q, p < A.d.mview (blk i).m → q < A.d.nview (blk i).n →
      evalid env (A.at' (blk i).m (blk i).n) p q)
    (hW : Fits env b W) (hV : Fits env b V) (hR : ∀ r c, R r c → r < V.d.m ∧ c < V.d.n)
    (hred : ∀ w w', (∀ r c, r < W.d.m → c < W.d.n → w r c = w' r c) → ∀ r c, R r c → red w r c = red w' r c) :
    ∀ t ∈ normP A W V L blk R red, t.Local ∧ t.Inside (evalid env) := by
  intro t ht
  rcases List.mem_append.mp ht with ht | ht
  · obtain ⟨i, hi, rfl⟩ := List.mem_map.mp ht
    refine ⟨blkT_local hB hi, ?_⟩
    rintro x p q (⟨rfl, hx⟩ | hx)
    · exact hA i hi p q hx.1 hx.2
    · exact reg_inside hW (hB.inW i hi) hx
  · rw [List.mem_singleton] at ht
    subst ht
    exact ⟨redT_local hW.al hred, redT_inside hW hV hR⟩

theorem zlangb_good (hnb : 0 < nb) {lsq : ℝ × ℝ → List 𝕜 → ℝ × ℝ} {junk : Nat → ℝ} {k : NormK}
    (hsf : l2tSafe nb kl ku m n) :
    GoodC (evalid (lbEnv nb m n kl ku ldab (lbWork k (langbA nb m n kl ku).d)))
      (zlangb (𝕜 := 𝕜) lsq junk k nb m n kl ku) := by
  set A := langbA nb m n kl ku with hA
  set W := uMat nb (nmDims m n (lbWork k A.d) (1, 1)) 1 with hW
  set V := uMat nb (nmDims m n (lbWork k A.d) (1, 1)) 2 with hV
  have fW : Fits (lbEnv nb m n kl ku ldab (lbWork k A.d)) nb W := lb_fitsW hnb
  have fV : Fits (lbEnv nb m n kl ku ldab (lbWork k A.d)) nb V := lb_fitsV hnb
  have hR : ∀ r c, r = 0 ∧ c = 0 → r < V.d.m ∧ c < V.d.n := by
    rintro r c ⟨rfl, rfl⟩; exact ⟨Nat.zero_lt_one, Nat.zero_lt_one⟩
  have hal : A.Al nb := bandR_al _ hnb _ _ _ _ _
  by_cases h0 : min m n = 0
  · have e : zlangb (𝕜 := 𝕜) lsq junk k nb m n kl ku =
        normP A W V [] (langbBlk lsq junk k A.d) (fun r c => r = 0 ∧ c = 0) (fun _ _ _ => 0) := if_pos h0
    have hB : BlkOK (𝕜 := 𝕜) A W [] (langbBlk lsq junk k A.d) := ⟨List.nodup_nil, by simp, by simp, by simp, by simp⟩
    have hl := normP_loc (V := V) (R := fun r c => r = 0 ∧ c = 0) (red := fun _ _ _ => 0) hB
      (env := lbEnv nb m n kl ku ldab (lbWork k A.d)) (by simp) fW fV hR (fun _ _ _ _ _ _ => rfl)
    rw [e]
    refine ⟨fun t ht => (hl t ht).1, fun t ht => (hl t ht).2, ?_⟩
    have := normP_cov (C := []) (V := V) (R := fun r c => r = 0 ∧ c = 0) (red := fun _ _ _ => 0) hB
      (by simp [hA, hW, langbA, bandR, uMat, TMat.full]) (by simp) (by simp) (by simp)
    simpa using this
  · have hm : 0 < m := by omega
    have e : zlangb (𝕜 := 𝕜) lsq junk k nb m n kl ku = pzpb2desc none (langbU nb m n) A ++
        normP A W V (lbTiles A.d).zipIdx (langbBlk lsq junk k A.d) (fun r c => r = 0 ∧ c = 0)
          (fun w _ _ => langbRed k A.d w) := if_neg h0
    have hB : BlkOK (𝕜 := 𝕜) A W (lbTiles A.d).zipIdx (langbBlk lsq junk k A.d) := langbBlk_ok hnb hm rfl rfl
    have hl := normP_loc (V := V) (R := fun r c => r = 0 ∧ c = 0) (red := fun w _ _ => langbRed k A.d w) hB
      (env := lbEnv nb m n kl ku ldab (lbWork k A.d)) (by
        intro t ht p q hp hq
        rw [(langbBlk_m).1] at hp ⊢
        rw [(langbBlk_m).2] at hq ⊢
        obtain ⟨t1, t2, t3⟩ := (mem_lbTiles (p := t.1.1) (q := t.1.2) hnb hm).mp (zipIdx_mem ht).1
        rw [hal.mview (by rw [hal.lt_mt]; exact t1)] at hp
        rw [hal.nview (by rw [hal.lt_nt]; exact t2)] at hq
        exact (lb_fitsA hnb).validOn (bTile_of_bandTile t3) hp hq) fW fV hR
      (fun w w' h r c _ => langbRed_congr h)
    have hg := pzpb2descR_good (α := 𝕜) (env := lbEnv nb m n kl ku ldab (lbWork k A.d)) (U := langbU nb m n) (A := A) hal
      hm hsf (fun p q i j ht hi hj => (lb_fitsA hnb).validOn ht hi hj) (lb_vU hnb)
    rw [e]
    refine ⟨?_, ?_, ?_⟩
    · intro t ht
      rcases List.mem_append.mp ht with ht | ht
      · exact hg.loc t ht
      · exact (hl t ht).1
    · intro t ht
      rcases List.mem_append.mp ht with ht | ht
      · exact hg.ins t ht
      · exact (hl t ht).2
    · refine normP_cov hB (by simp [hA, hW, langbA, bandR, uMat, TMat.full]) hg.decl ?_ ?_
      · intro t ht x i j hx
        obtain ⟨-, h1, h2⟩ := pzpb2desc_tiles t ht
        rcases hx with hx | hx
        · rw [h1 x i j hx]; simp [langbU, TMat.full, hW, hV, uMat]
        · rw [h2 x i j hx]; simp [hA, langbA, bandR, TMat.full, hW, hV, uMat]
      · exact fun t ht => (pzpb2desc_tiles t ht).1

theorem zlangb_exists (hnb : 0 < nb) (hld : lbKl nb kl + max (ku + kl) (nb - 1) + 1 ≤ ldab)
    (hsf : l2tSafe nb kl ku m n) (lsq : ℝ × ℝ → List 𝕜 → ℝ × ℝ) (junk : Nat → ℝ) (k : NormK)
    (mem : Buf × Nat → 𝕜) :
    ∃ mem', Exec (lbEnv nb m n kl ku ldab (lbWork k (langbA nb m n kl ku).d))
      (zlangb lsq junk k nb m n kl ku) mem mem' :=
  Exec.exists (lb_wf hnb hld) (zlangb_good (ldab := ldab) hnb hsf).loc (zlangb_good hnb hsf).ins mem

/-- The places `(r, c)` of the matrix that `plasma_zlangb` looks at: tiles with an element of the band, and in tiles
off the diagonal only places with room in the array (core_blas/core_zlacpy_band.c:82-97). -/
def langbSeen (nb kl ku r c : Nat) : Prop :=
  (r / nb * nb < c / nb * nb + nb + kl ∧ c / nb * nb < r / nb * nb + nb + ku) ∧
  (r / nb < c / nb → c ≤ r + (ku + kl)) ∧ (c / nb < r / nb → r ≤ c + kl + nb)

instance (nb kl ku r c : Nat) : Decidable (langbSeen nb kl ku r c) := by unfold langbSeen; infer_instance

open Classical in
/-- **C69, exactly.** Every execution of `plasma_zlangb` returns the norm of the matrix with the elements
`AB(kl+ku+r-c, c)` at the places it looks at, and zeros elsewhere.  The work array holds zeros, as `calloc` does, for
all norms but the max norm.  Arrays of the caller are unchanged. -/
theorem C69_langb_tiles (hnb : 0 < nb) {lsq : ℝ × ℝ → List 𝕜 → ℝ × ℝ} (hlsq : IsLassq lsq) (junk : Nat → ℝ)
    (k : NormK) (m n kl ku ldab : Nat) (hld : lbKl nb kl + max (ku + kl) (nb - 1) + 1 ≤ ldab)
    (hsf : l2tSafe nb kl ku m n) (mem mem' : Buf × Nat → 𝕜)
    (hz : k ≠ .max → ∀ x < lbAlloc k (langbA nb m n kl ku).d, mem (.usr 1, x) = 0)
    (h : Exec (lbEnv nb m n kl ku ldab (lbWork k (langbA nb m n kl ku).d))
      (zlangb lsq junk k nb m n kl ku) mem mem') :
    (∃ x : ℝ, mem' (.usr 2, 0) = (x : 𝕜) ∧ (min m n = 0 → x = 0) ∧
      (0 < min m n → NormOf k m n (fun r c => if langbSeen nb kl ku r c then
        ‖mem (.usr 0, ku + kl + r + c * ldab - c)‖ else 0) x)) ∧
    ∀ a i, a ≠ 1 → (a, i) ≠ (2, 0) → mem' (.usr a, i) = mem (.usr a, i) := by
  have hwf := lb_wf (m := m) (n := n) (ku := ku) (w := lbWork k (langbA nb m n kl ku).d) hnb hld
  have hg := zlangb_good (𝕜 := 𝕜) (ldab := ldab) hnb (lsq := lsq) (junk := junk) (k := k) hsf
  set A := langbA nb m n kl ku with hA
  set W := uMat nb (nmDims m n (lbWork k A.d) (1, 1)) 1 with hW
  set V := uMat nb (nmDims m n (lbWork k A.d) (1, 1)) 2 with hV
  set E := lbEnv nb m n kl ku ldab (lbWork k A.d) with hE
  have hal : A.Al nb := bandR_al _ hnb _ _ _ _ _
  have hWal : W.Al nb := al_u hnb 1
  have hVal : V.Al nb := al_u hnb 2
  have hAW : A.id ≠ W.id := by simp [hA, hW, langbA, bandR, uMat, TMat.full]
  have vV : ∀ mem : Buf × Nat → 𝕜, V.el (view (eloc E) mem) 0 0 = mem (.usr 2, 0) := fun mem =>
    (el_view_lapack (env := E) (id := .usr 2) hnb rfl mem 0 0).trans (by simp)
  have vW : ∀ r c, W.el (view (eloc E) mem) r c = mem (.usr 1, r + c * (lbWork k A.d).1) := fun r c =>
    el_view_lapack (env := E) (id := .usr 1) hnb rfl mem r c
  have hfin : mem' (.usr 2, 0) = V.el (texec (zlangb lsq junk k nb m n kl ku) (view (eloc E) mem)) 0 0 := by
    rw [← vV mem']
    exact Exec.elC hwf hg h (lb_fitsV hnb) Nat.zero_lt_one Nat.zero_lt_one
  refine ⟨?_, ?_⟩
  · by_cases h0 : min m n = 0
    · have e : zlangb (𝕜 := 𝕜) lsq junk k nb m n kl ku =
          normP A W V [] (langbBlk lsq junk k A.d) (fun r c => r = 0 ∧ c = 0) (fun _ _ _ => 0) := if_pos h0
      refine ⟨0, ?_, fun _ => rfl, fun h => by omega⟩
      rw [hfin, e]
      exact gop_in (deps := []) (rd := W.reg fun r c => r < W.d.m ∧ c < W.d.n) (R := fun r c => r = 0 ∧ c = 0)
        (g := fun s r c => ((0 : ℝ) : 𝕜))
        (by rw [hVal.mb]; exact hVal.pos) (by rw [hVal.nb]; exact hVal.pos) _ ⟨rfl, rfl⟩
    · have hm : 0 < m := by omega
      have hn : 0 < n := by omega
      have e : zlangb (𝕜 := 𝕜) lsq junk k nb m n kl ku = pzpb2desc none (langbU nb m n) A ++
          normP A W V (lbTiles A.d).zipIdx (langbBlk lsq junk k A.d) (fun r c => r = 0 ∧ c = 0)
            (fun w _ _ => langbRed k A.d w) := if_neg h0
      have hB : BlkOK (𝕜 := 𝕜) A W (lbTiles A.d).zipIdx (langbBlk lsq junk k A.d) := langbBlk_ok hnb hm rfl rfl
      set s0 := view (eloc E) mem with hs0
      set s1 := texec (pzpb2desc none (langbU nb m n) A) s0 with hs1
      set s2 := texec ((lbTiles A.d).zipIdx.map fun i => blkT A W (langbBlk lsq junk k A.d i)) s1 with hs2
      have w1 : ∀ r c, W.el s1 r c = mem (.usr 1, r + c * (lbWork k A.d).1) := by
        intro r c
        rw [← vW]
        have hw : Writes (fun x : Buf × Nat × Nat => x.1 = A.id) (pzpb2desc (α := 𝕜) none (langbU nb m n) A) :=
          fun t ht x i j hx => (pzpb2desc_tiles t ht).2.2 x i j hx
        unfold TMat.el
        rw [hs1, hw.frame s0 (by exact fun e => hAW e.symm)]
      set G : Nat → Nat → 𝕜 := fun r c => if inB none nb kl ku (r / nb) (c / nb) r c then
        mem (.usr 0, ku + kl + r + c * ldab - c) else 0 with hG
      have a1 : ∀ r c, r < m → c < n → bTile none nb kl ku (r / nb) (c / nb) → A.el s1 r c = G r c := by
        intro r c hr hc ht
        have := pzpb2descR_el (U := langbU nb m n) (A := A) (b := nb) hal (TMat.al_full _ hnb _ _) hsf
          (by simp [hA, langbU, langbA, bandR, TMat.full]) s0 hr hc ht
        rw [hs1, this]
        have hu : (langbU nb m n).el s0 r c = mem (.usr 0, ku + kl + r + c * ldab - c) := by
          have e : ∀ p q, (langbU nb m n).at' p q = (.usr 0, p, q) := by
            intro p q; simp [langbU, TMat.full, TMat.at', general]
          unfold TMat.el
          rw [e]
          show mem (.usr 0, ku + kl + (r / nb * nb + r % nb) +
            (c / nb * nb + c % nb) * ldab - (c / nb * nb + c % nb)) = _
          rw [divmod, divmod]
        rw [hu]
        rfl
      set a : Nat → Nat → ℝ := fun r c => if r < (lbWork k A.d).1 ∧ c < (lbWork k A.d).2 then
        RCLike.re (W.el s2 r c) else 0 with ha
      refine ⟨langbRed k A.d a, ?_, fun h => absurd h h0, fun _ => ?_⟩
      · rw [hfin, e, texec_append]
        unfold normP
        rw [texec_append]
        refine (gop_in (deps := []) (rd := W.reg fun r c => r < W.d.m ∧ c < W.d.n) (R := fun r c => r = 0 ∧ c = 0)
          (g := fun s r c => ((langbRed k A.d (fun p q => RCLike.re (W.el s p q)) : ℝ) : 𝕜))
          (by rw [hVal.mb]; exact hVal.pos) (by rw [hVal.nb]; exact hVal.pos) s2 ⟨rfl, rfl⟩).trans ?_
        congr 1
        refine langbRed_congr fun r c hr hc => ?_
        simp only [ha]
        rw [if_pos ⟨hr, hc⟩]
      · have hv := langb_value (id := .til 0) (lm := bLmt none nb kl ku * nb) (m := m) (n := n) (kl := kl) (ku := ku)
          hlsq (junk := junk) (k := k) hnb hm hn (a := a) (G := G) ?_ ?_
        · refine NormOf.congr ?_ hv
          intro r hr c hc
          by_cases hs : langbSeen nb kl ku r c
          · rw [if_pos hs, if_pos (show bandTile nb kl ku (r / nb) (c / nb) from hs.1)]
            show ‖if _ then _ else _‖ = _
            rw [if_pos (show inB none nb kl ku (r / nb) (c / nb) r c from hs.2)]
          · rw [if_neg hs]
            split
            · rename_i ht
              show ‖if _ then _ else _‖ = _
              rw [if_neg (show ¬ inB none nb kl ku (r / nb) (c / nb) r c from fun hi => hs ⟨ht, hi⟩), norm_zero]
            · rfl
        · intro t ht r c hR
          have hin : r < (lbWork k A.d).1 ∧ c < (lbWork k A.d).2 := hB.inW t ht r c hR
          have h1 := blks_in hWal hAW hB.nodup hB.one s1 ht hR
          show (if r < (lbWork k A.d).1 ∧ c < (lbWork k A.d).2 then RCLike.re (W.el s2 r c) else 0) = _
          rw [if_pos hin, hs2, h1, RCLike.ofReal_re]
          refine hB.reads t ht _ _ (fun p q hp hq => ?_) r c hR
          rw [(langbBlk_m).1] at hp ⊢
          rw [(langbBlk_m).2] at hq ⊢
          obtain ⟨t1, t2, t3⟩ := (mem_lbTiles (p := t.1.1) (q := t.1.2) hnb hm).mp (zipIdx_mem ht).1
          rw [hal.mview (by rw [hal.lt_mt]; exact t1)] at hp
          rw [hal.nview (by rw [hal.lt_nt]; exact t2)] at hq
          have hp' := tdim_row.mp hp
          have hq' := tdim_row.mp hq
          rw [← hal.el_tile s1 hp'.1 hq'.1]
          refine a1 _ _ hp'.2 hq'.2 ?_
          have ed : ∀ {p i : Nat}, i < nb → (p * nb + i) / nb = p := fun {p i} h => by
            rw [Nat.mul_comm, Nat.mul_add_div hnb, Nat.div_eq_of_lt h, Nat.add_zero]
          rw [ed hp'.1, ed hq'.1]
          exact bTile_of_bandTile t3
        · intro hk r c hn0
          show (if r < (lbWork k A.d).1 ∧ c < (lbWork k A.d).2 then RCLike.re (W.el s2 r c) else 0) = 0
          split
          · rename_i hin
            rw [hs2, blks_out (A := A) hWal (lbTiles A.d).zipIdx (langbBlk lsq junk k A.d) s1 hn0, w1, hz hk _ ?_, map_zero]
            refine lt_of_lt_of_le ?_ (lbWork_fits hnb hm k)
            have := Nat.mul_le_mul_left (lbWork k A.d).1 (show c + 1 ≤ (lbWork k A.d).2 from hin.2)
            rw [Nat.mul_add, Nat.mul_one, Nat.mul_comm] at this
            exact lt_of_lt_of_le (by omega) this
          · rfl
  · intro a i ha1 ha2
    have hwr : Writes (fun x : Buf × Nat × Nat => x.1 = .til 0 ∨ x.1 = .usr 1 ∨ x.1 = .usr 2)
        (zlangb (𝕜 := 𝕜) lsq junk k nb m n kl ku) := by
      have hP : ∀ {ι : Type} {L : List ι} {blk : ι → Blk 𝕜} {red}, Writes (fun x : Buf × Nat × Nat =>
          x.1 = .til 0 ∨ x.1 = .usr 1 ∨ x.1 = .usr 2) (normP A W V L blk (fun r c => r = 0 ∧ c = 0) red) := by
        intro ι L blk red t ht x i j hx
        rcases List.mem_append.mp ht with ht | ht
        · obtain ⟨_, _, rfl⟩ := List.mem_map.mp ht
          exact Or.inr (Or.inl hx.1)
        · rw [List.mem_singleton] at ht
          subst ht
          exact Or.inr (Or.inr hx.1)
      unfold zlangb
      refine Writes.ite (fun _ => hP) fun _ => Writes.append ?_ hP
      exact fun t ht x i j hx => Or.inl ((pzpb2desc_tiles t ht).2.2 x i j hx)
    refine (Exec.correct hwf hg.loc hg.ins hg.cov h).2 _ ?_
    rintro t ht ⟨a', p, q⟩ i' j' hw' hel
    have h1 : a' = .usr a := congrArg Prod.fst hel
    have h2 := congrArg Prod.snd hel
    subst h1
    rcases hwr t ht _ _ _ hw' with h3 | h3 | h3
    · cases h3
    · injection h3 with h3
      exact ha1 h3
    · injection h3 with h3
      subst h3
      have hv := hg.ins t ht _ _ _ (Or.inr hw')
      have hv1 : TileOK nb nb 1 1 p q i' j' := hv.1
      rw [tileOK_iff] at hv1
      have h4 : (p * nb + i') + 1 * (q * nb + j') = i :=
        (MatEnv.off_lapack (e := E (.usr 2)) (l := 1) rfl p q i' j').symm.trans h2
      apply ha2
      have : i = 0 := by omega
      rw [this]

/-- **C69.** If the places outside the band that `plasma_zlangb` looks at hold zeros, it returns the norm of the band
matrix.  Partial: the zeros, the leading dimension and the shape are requirements that the code does not state
(`C69_outside_band_refuted`, `C69_ldab_refuted`, `C70_wide_refuted`). -/
theorem C69_langb_partial (hnb : 0 < nb) {lsq : ℝ × ℝ → List 𝕜 → ℝ × ℝ} (hlsq : IsLassq lsq) (junk : Nat → ℝ)
    (k : NormK) (m n kl ku ldab : Nat) (hld : lbKl nb kl + max (ku + kl) (nb - 1) + 1 ≤ ldab)
    (hsf : l2tSafe nb kl ku m n) (mem mem' : Buf × Nat → 𝕜)
    (hz : k ≠ .max → ∀ x < lbAlloc k (langbA nb m n kl ku).d, mem (.usr 1, x) = 0)
    (hband : ∀ r c, r < m → c < n → c + kl < r ∨ r + ku < c → langbSeen nb kl ku r c →
      mem (.usr 0, ku + kl + r + c * ldab - c) = 0)
    (h : Exec (lbEnv nb m n kl ku ldab (lbWork k (langbA nb m n kl ku).d))
      (zlangb lsq junk k nb m n kl ku) mem mem') :
    (∃ x : ℝ, mem' (.usr 2, 0) = (x : 𝕜) ∧ (min m n = 0 → x = 0) ∧
      (0 < min m n → NormOf k m n (fun r c => if r ≤ c + kl ∧ c ≤ r + ku then
        ‖mem (.usr 0, (ku + kl + r - c) + c * ldab)‖ else 0) x)) ∧
    ∀ a i, a ≠ 1 → (a, i) ≠ (2, 0) → mem' (.usr a, i) = mem (.usr a, i) := by
  obtain ⟨⟨x, h1, h2, h3⟩, h4⟩ := C69_langb_tiles hnb hlsq junk k m n kl ku ldab hld hsf mem mem' hz h
  refine ⟨⟨x, h1, h2, fun h0 => NormOf.congr ?_ (h3 h0)⟩, h4⟩
  intro r hr c hc
  by_cases hb : r ≤ c + kl ∧ c ≤ r + ku
  · have hs : langbSeen nb kl ku r c :=
      ⟨bandTile_of_band hnb hb.1 hb.2, fun _ => by omega, fun _ => by omega⟩
    rw [if_pos hb, if_pos hs]
    congr 3
    omega
  · rw [if_neg hb]
    split
    · rename_i hs
      rw [hband r c hr hc (by omega) hs, norm_zero]
    · rfl

/-- **C69, refuted without the zeros.** A 2 × 2 diagonal matrix (`kl = ku = 0`), tiles of size 2: an array with
leading dimension 3 and zeros on the diagonal, but a one in an unused place of its first column, has norm 1 according
to `plasma_zlangb`. -/
theorem C69_outside_band_refuted {lsq : ℝ × ℝ → List 𝕜 → ℝ × ℝ} (hlsq : IsLassq lsq) (junk : Nat → ℝ)
    (mem mem' : Buf × Nat → 𝕜) (h0 : mem (.usr 0, 0) = 0) (h3 : mem (.usr 0, 3) = 0) (h1 : mem (.usr 0, 1) = 0)
    (h2 : mem (.usr 0, 2) = 1)
    (h : Exec (lbEnv 2 2 2 0 0 3 (lbWork .max (langbA 2 2 2 0 0).d))
      (zlangb lsq junk .max 2 2 2 0 0) mem mem') :
    mem' (.usr 2, 0) = 1 := by
  obtain ⟨⟨x, e, -, hx⟩, -⟩ := C69_langb_tiles (by omega) hlsq junk .max 2 2 0 0 3 (by decide)
    (l2tSafe_tall (by omega) le_rfl) mem mem' (fun h => absurd rfl h) h
  obtain ⟨⟨r, c, hr, hc, hxe⟩, hub⟩ := hx (by decide)
  have seen : ∀ r c, r < 2 → c < 2 → langbSeen 2 0 0 r c := by
    intro r c hr hc
    have h1 : r / 2 = 0 := by omega
    have h2 : c / 2 = 0 := by omega
    unfold langbSeen
    rw [h1, h2]; omega
  have hge : 1 ≤ x := by
    have := hub ⟨0, 1, by omega, by omega, rfl⟩
    simp only [if_pos (seen 0 1 (by omega) (by omega))] at this
    rw [h2] at this
    simpa using this
  have hle : x ≤ 1 := by
    rw [hxe]
    dsimp only
    rw [if_pos (seen r c hr hc)]
    interval_cases r <;> interval_cases c <;> simp [h0, h1, h2, h3]
  rw [e, le_antisymm hle hge, RCLike.ofReal_one]

/-- **C69, leading dimension refuted.** The argument check accepts `ldab = kl+ku+1`, the height of the band, but the
conversion reads `AB` with `kl+ku` superdiagonals: for all matrices with subdiagonals and `m ≥ n+kl` one of its tasks
reads behind the end of the array. -/
theorem C69_ldab_refuted (hnb : 0 < nb) (w : Nat × Nat) (k : NormK) (hkl : 1 ≤ kl) (hn : 1 ≤ n) (hmn : n + kl ≤ m) :
    ArgCheck.zlangbArgs ArgCheck.MaxNorm m n kl ku (kl + ku + 1) = 0 ∧
    ∃ t ∈ pzpb2desc (α := 𝕜) none (langbU nb m n) (langbA nb m n kl ku), ∃ x i j, t.rd x i j ∧
      ∃ a, eloc (lbEnv nb m n kl ku (kl + ku + 1) w) x i j = (.usr 0, a) ∧ (kl + ku + 1) * n ≤ a := by
  refine ⟨?_, ?_⟩
  · unfold ArgCheck.zlangbArgs
    rw [if_neg (by omega), if_neg (by omega), if_neg (by omega), if_neg (by omega), if_neg (by omega),
      if_neg (by omega)]
  · have hal : (langbA nb m n kl ku).Al nb := bandR_al _ hnb _ _ _ _ _
    obtain ⟨c, rfl⟩ : ∃ c, n = c + 1 := ⟨n - 1, by omega⟩
    have hr : c + kl < m := by omega
    have hb : bTile none nb kl ku ((c + kl) / nb) (c / nb) :=
      bTile_of_bandTile (bandTile_of_band hnb le_rfl (by omega))
    have dr := divmod (c + kl) nb
    have dc := divmod c nb
    have ht := (mem_bandInR (A := langbA nb m (c + 1) kl ku) hal (show 0 < m by omega)).mpr
      ⟨show (c + kl) / nb * nb < m by omega, show c / nb * nb < c + 1 by omega, hb⟩
    refine ⟨coreL2t none ((c + kl) / nb) (c / nb) (tdim m nb ((c + kl) / nb)) (tdim (c + 1) nb (c / nb)) nb kl ku
        ((langbU nb m (c + 1)).at' ((c + kl) / nb) (c / nb))
        ((langbA nb m (c + 1) kl ku).at' ((c + kl) / nb) (c / nb)),
      List.mem_flatMap.mpr ⟨c / nb, List.mem_range.mpr ht.1, List.mem_map.mpr ⟨_, ht.2, rfl⟩⟩,
      (langbU nb m (c + 1)).at' ((c + kl) / nb) (c / nb), (c + kl) % nb, c % nb, ?_, ?_⟩
    · have h1 := mod_lt_tdim hnb hr
      have h2 := mod_lt_tdim hnb (show c < c + 1 by omega)
      have := (l2tR_in (R := m) (C := c + 1) (show (c + kl) / nb * nb < m by omega) (show c / nb * nb < c + 1 by omega) hb
        h1 h2).1.mpr (by rw [dr, dc]; simp only [inB]; omega)
      exact ⟨rfl, this⟩
    · refine ⟨ku + kl + ((c + kl) / nb * nb + (c + kl) % nb) +
        (c / nb * nb + c % nb) * (kl + ku + 1) - (c / nb * nb + c % nb), ?_, ?_⟩
      · have e : (langbU nb m (c + 1)).at' ((c + kl) / nb) (c / nb) = (.usr 0, (c + kl) / nb, c / nb) := by
          simp [langbU, TMat.full, TMat.at', general]
        rw [e]
        rfl
      · rw [dr, dc, Nat.mul_add, Nat.mul_comm (kl + ku + 1) c]
        omega

end

/-- **C69** (work array).  For all four norms the array that `plasma_zlangb` allocates (compute/zlangb.c:147-166) has
room for what the tasks of `plasma_pzlangb` store in it. -/
theorem C69_work {nb : Nat} (hnb : 0 < nb) (hm : 0 < m) (k : NormK) :
    (lbWork k (langbA nb m n kl ku).d).1 * (lbWork k (langbA nb m n kl ku).d).2 ≤ lbAlloc k (langbA nb m n kl ku).d :=
  lbWork_fits hnb hm k

open Verif.Desc in
/-- **C69, bandwidth refuted.** Widths as large as the matrix are accepted by the argument check, but then the
creation of the descriptor fails and its error code is returned in place of the norm. -/
theorem C69_width_refuted {nb m n kl ku : Int} (hnb : 0 < nb) (hm : 0 < m) (hn : 0 < n) (hkl : 0 ≤ kl) (hku : 0 ≤ ku)
    (h : m ≤ kl ∨ n ≤ ku) :
    ArgCheck.zlangbArgs ArgCheck.MaxNorm m n kl ku (1 + kl + ku) = 0 ∧
    bandCreate true true 5 .general nb nb (gbRows nb kl ku) n 0 0 m n kl ku = .err errIllegalValue := by
  refine ⟨?_, (C68_descriptor hnb hm.le hn.le hkl hku).2 (by omega)⟩
  unfold ArgCheck.zlangbArgs
  rw [if_neg (by omega), if_neg (by omega), if_neg (by omega), if_neg (by omega), if_neg (by omega),
    if_neg (by omega)]

/-- `C69_width_refuted`: a 1 × 3 matrix with one (empty) subdiagonal. -/
example : (0 : Int) < 1 ∧ (0 : Int) < 3 ∧ ((1 : Int) ≤ 1 ∨ (3 : Int) ≤ 0) := by decide

/-! ### The conversion stays inside the tiles -/

/-- **C70.** All assignments of all kernel calls of the conversion of a general band matrix (`plasma_pzpb2desc` with
`PlasmaGeneral`) lie inside the tile that the call has declared, exactly if the tile columns to the right of the last
tile row are not too far away. -/
theorem C70_convert_iff {b kl ku m n : Nat} (hb : 0 < b) :
    (∀ it jt, it * b < m → jt * b < n → bTile none b kl ku it jt →
      ∀ i j f, (i, j, f) ∈ l2tSteps none it jt (tdim m b it) (tdim n b jt) b kl ku →
        (0 ≤ i ∧ i < tdim m b it) ∧ 0 ≤ j ∧ j < tdim n b jt) ↔
    ∀ q, 0 < m → q * b < n → q * b < (m - 1) / b * b + b + (ku + kl) → q * b ≤ m + (ku + kl) + 1 := by
  rw [← l2tSafe_iff hb]
  constructor
  · intro h it jt h1 h2 h3 hlt
    by_contra hc
    have e2 : ((it : Int) - jt) * b = it * b - jt * b := by ring
    have g1 : ((it * b : Nat) : Int) = (it : Int) * b := by push_cast; ring
    have g2 : ((jt * b : Nat) : Int) = (jt : Int) * b := by push_cast; ring
    have d1 : 0 < tdim m b it := tdim_pos hb ((lt_ceilDiv hb).mpr h1)
    have d2 : 0 < tdim n b jt := tdim_pos hb ((lt_ceilDiv hb).mpr h2)
    have hmem : ((0 : Int), (-1 : Int), false) ∈ l2tSteps none it jt (tdim m b it) (tdim n b jt) b kl ku := by
      rw [mem_l2t_false]
      refine Or.inr (Or.inr ⟨?_, by omega⟩)
      simp only [bJe]
      rw [if_neg (by omega), e2, ← g1, ← g2]
      generalize it * b = x at *
      generalize jt * b = y at *
      generalize tdim m b it = p at *
      omega
    have := (h it jt h1 h2 h3 _ _ _ hmem).2.1
    omega
  · intro h it jt h1 h2 h3 i j f hf
    exact l2tR_bound h1 h2 h3 (h it jt h1 h2 h3) hf

/-- **C70** for matrices that are not wide, and for matrices whose last tile row is full. -/
theorem C70_convert_partial {b kl ku m n : Nat} (hb : 0 < b) (hs : n ≤ m ∨ b ∣ m) {it jt : Nat} (h1 : it * b < m)
    (h2 : jt * b < n) (h3 : bTile none b kl ku it jt) {i j : Int} {f : Bool}
    (hf : (i, j, f) ∈ l2tSteps none it jt (tdim m b it) (tdim n b jt) b kl ku) :
    (0 ≤ i ∧ i < tdim m b it) ∧ 0 ≤ j ∧ j < tdim n b jt := by
  rcases hs with h | h
  · exact l2tR_bound h1 h2 h3 (l2tSafe_tall hb h it jt h1 h2 h3) hf
  · exact l2tR_bound h1 h2 h3 (l2tSafe_full hb h it jt h1 h2 h3) hf

/-- **C70, refuted for wide matrices.** One row, `ku = 1` and columns beyond one tile of size at least 4: the call for
the second tile starts to fill with zeros at a negative column, outside of the tile. -/
theorem C70_wide_refuted {b n : Nat} (hb : 4 ≤ b) (hn : b < n) :
    (0 * b < 1 ∧ 1 * b < n ∧ bTile none b 0 1 0 1) ∧
      ((0 : Int), (-1 : Int), false) ∈ l2tSteps none 0 1 (tdim 1 b 0) (tdim n b 1) b 0 1 := by
  refine ⟨⟨by omega, by omega, by simp only [bTile]; omega⟩, ?_⟩
  rw [mem_l2t_false]
  refine Or.inr (Or.inr ⟨?_, ?_⟩)
  · simp only [bJe]
    rw [if_neg (by omega)]
    have : tdim 1 b 0 = 1 := by unfold tdim; omega
    rw [this]
    omega
  · have : tdim 1 b 0 = 1 := by unfold tdim; omega
    rw [this]; omega

/-! ### Examples -/

/-- A tridiagonal 5 × 5 matrix with tiles of size 2 meets the hypotheses of `C69_langb_partial` for all norms. -/
example : lbKl 2 1 + max (1 + 1) (2 - 1) + 1 ≤ 6 ∧ l2tSafe 2 1 1 5 5 ∧ 0 < min 5 5 ∧
    ∃ lsq, IsLassq (𝕜 := ℂ) lsq ∧ ∀ k, ∃ mem mem' : Buf × Nat → ℂ, (∀ x, mem (.usr 1, x) = 0) ∧
      (∀ r c, r < 5 → c < 5 → c + 1 < r ∨ r + 1 < c → mem (.usr 0, 1 + 1 + r + c * 6 - c) = 0) ∧
      mem (.usr 0, 2) = 1 ∧
      Exec (lbEnv 2 5 5 1 1 6 (lbWork k (langbA 2 5 5 1 1).d)) (zlangb lsq (fun _ => 0) k 2 5 5 1 1) mem mem' := by
  obtain ⟨lsq, hl⟩ := exists_lassq ℂ
  refine ⟨by decide, l2tSafe_tall (by omega) le_rfl, by decide, lsq, hl, fun k => ?_⟩
  obtain ⟨mem', h⟩ := zlangb_exists (𝕜 := ℂ) (nb := 2) (m := 5) (n := 5) (kl := 1) (ku := 1) (ldab := 6) (by omega)
    (by decide) (l2tSafe_tall (by omega) le_rfl) lsq (fun _ => 0) k
    (fun x => if x = (.usr 0, 2) then 1 else 0)
  refine ⟨_, mem', by simp, ?_, by simp, h⟩
  intro r c hr hc hb
  refine if_neg (fun e => ?_)
  simp only [Prod.mk.injEq, true_and] at e
  omega

/-- `C69_outside_band_refuted` is about executions that exist. -/
example : ∃ lsq, IsLassq (𝕜 := ℂ) lsq ∧ ∃ mem mem' : Buf × Nat → ℂ, mem (.usr 0, 0) = 0 ∧ mem (.usr 0, 3) = 0 ∧
    mem (.usr 0, 1) = 0 ∧ mem (.usr 0, 2) = 1 ∧ Exec (lbEnv 2 2 2 0 0 3 (lbWork .max (langbA 2 2 2 0 0).d))
      (zlangb lsq (fun _ => 0) .max 2 2 2 0 0) mem mem' := by
  obtain ⟨lsq, hl⟩ := exists_lassq ℂ
  obtain ⟨mem', h⟩ := zlangb_exists (𝕜 := ℂ) (nb := 2) (m := 2) (n := 2) (kl := 0) (ku := 0) (ldab := 3) (by omega)
    (by decide) (l2tSafe_tall (by omega) le_rfl) lsq (fun _ => 0) .max
    (fun x => if x = (.usr 0, 2) then 1 else 0)
  exact ⟨lsq, hl, _, mem', by simp, by simp, by simp, by simp, h⟩

/-- `C69_ldab_refuted`: a 2 × 1 matrix with one subdiagonal. -/
example : 1 ≤ 1 ∧ 1 ≤ 1 ∧ 1 + 1 ≤ 2 := by decide

/-- `C70_convert_partial`: a 6 × 9 matrix with tiles of size 3, and a visited tile. -/
example : 3 ∣ 6 ∧ 1 * 3 < 6 ∧ 2 * 3 < 9 ∧ bTile none 3 0 1 1 2 := by
  refine ⟨by decide, by decide, by decide, ?_⟩
  simp only [bTile]; omega

end Verif.Props

/-
Properties of `plasma_zpotrf`: C15 (the factor), C16 (the failure index), and of sequences
with failures: C42.
-/
import Verif.Potrf
import Verif.Props.Trsm

namespace Verif.Props

open Verif.Layout Verif.Tile Verif.Sched Finset

universe v

variable {𝕜 : Type v} [RCLike 𝕜] [DecidableEq 𝕜]

/-- Shape of the one array of `plasma_zpotrf` (compute/zpotrf.c:116-123). -/
def potDims (n : Nat) : Nat → Nat × Nat
  | 0 => (n, n)
  | _ => (0, 0)

/-- Leading dimension of the one array. -/
def ld1 (lda : Nat) : Nat → Nat
  | 0 => lda
  | _ => 0

/-- `plasma_omp_zpotrf` (compute/zpotrf.c:206-246). -/
noncomputable def ompZpotrf {M : Type} (pk : Uplo → Nat → Tl 𝕜 → Tl 𝕜) (info : Uplo → Nat → Tl 𝕜 → Nat)
    (dv : 𝕜 → 𝕜 → 𝕜) (u : Uplo) (A : TMat M) : List (GTTask (M × Nat × Nat) 𝕜) :=
  if A.d.m = 0 then [] else pzpotrf pk info dv u A

/-- Tasks created by `plasma_zpotrf` (compute/zpotrf.c:74-150) for valid arguments: quick
return for `n = 0`, otherwise copy to triangular tile storage, factorization, copy back. -/
noncomputable def zpotrf (nb : Nat) (pk : Uplo → Nat → Tl 𝕜 → Tl 𝕜) (info : Uplo → Nat → Tl 𝕜 → Nat)
    (dv : 𝕜 → 𝕜 → 𝕜) (u : Uplo) (n : Nat) : List (GTTask (Buf × Nat × Nat) 𝕜) :=
  if n = 0 then [] else
    gdriverK nb (potDims n) (fun _ => some u) [0] (ompZpotrf pk info dv u (tMat nb (potDims n) 0)) [0]

/-- The Hermitian matrix described by the triangle `u` of an array; imaginary parts on the
diagonal are ignored. -/
noncomputable def herE (u : Uplo) (A : Nat → Nat → 𝕜) (i j : Nat) : 𝕜 :=
  if i = j then ((RCLike.re (A i i) : ℝ) : 𝕜)
  else match u with
    | .lower => if j ≤ i then A i j else star (A j i)
    | .upper => if i ≤ j then A i j else star (A j i)

/-- Leading submatrix of order `k` of the Hermitian matrix described by the triangle `u`. -/
noncomputable def herM (u : Uplo) (A : Nat → Nat → 𝕜) (k : Nat) : Matrix (Fin k) (Fin k) 𝕜 :=
  Matrix.of fun i j => herE u A i j

omit [DecidableEq 𝕜] in
theorem hermM_lowE (u : Uplo) (A : Nat → Nat → 𝕜) (k : Nat) : hermM k (lowE u A) = herM u A k := by
  ext i j
  simp only [hermM, herM, herE, Matrix.of_apply, hd, lowE]
  by_cases hij : (i : Nat) = j
  · have : i = j := Fin.ext hij
    subst this
    cases u <;> simp [reP]
  · cases u
    · simp only [reduceCtorEq, if_false, if_neg hij, if_neg (Ne.symm hij)]
      by_cases h : (j : Nat) ≤ i
      · rw [if_pos h, if_neg (by omega)]
      · rw [if_neg h, if_pos (by omega), star_star]
    · simp only [if_true, if_neg hij, if_neg (Ne.symm hij)]

omit [DecidableEq 𝕜] in
/-- The product of a Cholesky factor with its conjugate transpose, over the full range. -/
theorem Chol_full {n : Nat} {A L : Nat → Nat → 𝕜} (h : Chol n A L) {i j : Nat} (hi : i < n) (hj : j < n) :
    ∑ l ∈ range n, (if l ≤ i then L i l else 0) * star (if l ≤ j then L j l else 0) =
      if j ≤ i then hd A i j else star (hd A j i) := by
  have key : ∀ r c, c ≤ r → r < n →
      ∑ l ∈ range n, (if l ≤ r then L r l else 0) * star (if l ≤ c then L c l else 0) = hd A r c := by
    intro r c hc hr
    rw [← h.eq r c hc hr]
    symm
    refine sum_subset_zero_on_sdiff ?_ ?_ ?_
    · intro l hl; rw [mem_range] at *; omega
    · intro l hl
      rw [mem_sdiff, mem_range, mem_range] at hl
      rw [if_neg (show ¬ l ≤ c by omega)]; simp
    · intro l hl
      rw [mem_range] at hl
      rw [if_pos (show l ≤ r by omega), if_pos (show l ≤ c by omega)]
  by_cases hji : j ≤ i
  · rw [if_pos hji]; exact key i j hji hi
  · rw [if_neg hji, ← key j i (by omega) hj, star_sum]
    refine sum_congr rfl fun l _ => ?_
    rw [star_mul, star_star]

omit [DecidableEq 𝕜] in
theorem trE_if (u : Uplo) (A : Nat → Nat → 𝕜) (i j : Nat) :
    trE u .nonUnit A i j = if inTri u i j then A i j else 0 := by
  unfold trE
  by_cases h : i = j
  · subst h; cases u <;> simp [inTri]
  · rw [if_neg h]

theorem pot_ld {n lda : Nat} (h : n ≤ lda) : ∀ k, (potDims n k).1 ≤ ld1 lda k := by
  intro k; rcases k with _ | k <;> simp [potDims, ld1, h]

theorem pot_sq {n : Nat} {u : Uplo} : ∀ k, stSq ((fun _ => some u : Nat → Stor) k) (potDims n k).1 (potDims n k).2 := by
  intro k; rcases k with _ | k <;> exact Or.inr rfl

section
variable {pk : Uplo → Nat → Tl 𝕜 → Tl 𝕜} {info : Uplo → Nat → Tl 𝕜 → Nat} {dv : 𝕜 → 𝕜 → 𝕜}
  {nb n lda : Nat} {u : Uplo}

theorem ompZpotrf_eq (hn : n ≠ 0) : ompZpotrf pk info dv u (tMat nb (potDims n) 0) =
    pzpotrf pk info dv u (tMat nb (potDims n) 0) := by
  unfold ompZpotrf; rw [if_neg]; exact hn

theorem stOK_some_div {u : Uplo} {r c nb : Nat} (h : inTri u r c) : stOK (some u) (r / nb) (c / nb) := by
  unfold stOK
  cases u
  · exact Nat.div_le_div_right (c := nb) h
  · exact Nat.div_le_div_right (c := nb) h

theorem pot_good (hnb : 0 < nb) (hpk : IsPotrf pk info) :
    Good (evalid (drvEnvK nb (potDims n) (ld1 lda) (fun _ => some u)))
      (tasks (pzpotrf pk info dv u (tMat nb (potDims n) 0))) :=
  pzpotrf_good (N := n) hpk (fitsK_t hnb 0) rfl rfl

theorem pot_onTiles (hnb : 0 < nb) :
    OnTiles (tasks (pzpotrf pk info dv u (tMat nb (potDims n) 0))) :=
  Writes.mono (pzpotrf_writes (N := n) (al_t hnb 0) rfl rfl) fun _ ht => ⟨0, ht⟩

omit [DecidableEq 𝕜] in
theorem lowE_congr {u : Uplo} {A B : Nat → Nat → 𝕜} {r c : Nat} (hcr : c ≤ r)
    (h : ∀ i j, inTri u i j → i ≤ r → j ≤ r → A i j = B i j) : lowE u A r c = lowE u B r c := by
  unfold lowE
  cases u
  · simp only [reduceCtorEq, if_false]; rw [h c r hcr hcr (le_refl _)]
  · simp only [if_true]; exact h r c hcr (le_refl _) hcr

end

/-- The selected triangle after a successful `plasma_zpotrf` is a Cholesky factor. -/
theorem C15_chol {nb : Nat} (hnb : 0 < nb) {pk : Uplo → Nat → Tl 𝕜 → Tl 𝕜} {info : Uplo → Nat → Tl 𝕜 → Nat}
    (hpk : IsPotrf pk info) {dv : 𝕜 → 𝕜 → 𝕜} (hdv : IsDiv dv) (u : Uplo) (n lda : Nat) (hl : n ≤ lda)
    (mem mem' : Buf × Nat → 𝕜)
    (hx : GExec (drvEnvK nb (potDims n) (ld1 lda) (fun _ => some u)) (zpotrf nb pk info dv u n) mem mem' 0) :
    Chol n (lowE u (arr mem 0 lda)) (lowE u (arr mem' 0 lda)) := by
  unfold zpotrf at hx
  split at hx
  · rename_i hq
    subst hq
    exact ⟨fun i hi => absurd hi (Nat.not_lt_zero _), fun r c _ hr => absurd hr (Nat.not_lt_zero _)⟩
  · rename_i hq
    rw [ompZpotrf_eq hq] at hx
    have hA := al_t (nb := nb) (dims := potDims n) hnb 0
    have hco : CodeOK (pzpotrf pk info dv u (tMat nb (potDims n) 0)) := pzpotrf_codeOK (N := n) hpk hA rfl rfl
    obtain ⟨s, hin, hz, hout⟩ := gdriverK_success hnb (pot_ld hl) pot_sq (by simp) (by simp)
      (pot_good hnb hpk) (pot_onTiles hnb) hco hx
    have hch := pzpotrf_ok (N := n) (u := u) hpk hdv hA rfl rfl s hz
    have hI : ∀ i j, i < n → j < n → inTri u i j → (tMat nb (potDims n) 0).el s i j = arr mem 0 lda i j :=
      fun i j hi hj h => hin 0 (by simp) i j hi hj (stOK_some_div h)
    have hO : ∀ i j, i < n → j < n → inTri u i j → (tMat nb (potDims n) 0).el
        (texec (tasks (pzpotrf pk info dv u (tMat nb (potDims n) 0))) s) i j = arr mem' 0 lda i j := by
      intro i j hi hj h
      have := hout 0 (by simp) i j hi hj
      rw [if_pos (stOK_some_div h)] at this
      exact this.symm
    exact hch.congr (fun r c hc hr => lowE_congr hc fun i j h hi hj => hI i j (by omega) (by omega) h)
        (fun r c hc hr => lowE_congr hc fun i j h hi hj => hO i j (by omega) (by omega) h)

/-- **C15.** If `plasma_zpotrf` returns `PlasmaSuccess`, then in every execution the
selected triangle of `pA` holds a factor with positive real diagonal: `L L^H` (lower) or
`U^H U` (upper) is the Hermitian matrix described by the selected triangle on entry.  The
other strict triangle and everything outside the matrix are unchanged. -/
theorem C15_potrf {nb : Nat} (hnb : 0 < nb) {pk : Uplo → Nat → Tl 𝕜 → Tl 𝕜} {info : Uplo → Nat → Tl 𝕜 → Nat}
    (hpk : IsPotrf pk info) {dv : 𝕜 → 𝕜 → 𝕜} (hdv : IsDiv dv) (u : Uplo) (n lda : Nat) (hl : n ≤ lda)
    (mem mem' : Buf × Nat → 𝕜)
    (hx : GExec (drvEnvK nb (potDims n) (ld1 lda) (fun _ => some u)) (zpotrf nb pk info dv u n) mem mem' 0) :
    (∀ i, i < n → star (arr mem' 0 lda i i) = arr mem' 0 lda i i ∧ 0 < RCLike.re (arr mem' 0 lda i i)) ∧
    (∀ i j, i < n → j < n →
      (if u = .lower then
          ∑ l ∈ range n, trE .lower .nonUnit (arr mem' 0 lda) i l * star (trE .lower .nonUnit (arr mem' 0 lda) j l)
        else
          ∑ l ∈ range n, star (trE .upper .nonUnit (arr mem' 0 lda) l i) * trE .upper .nonUnit (arr mem' 0 lda) l j) =
        herE u (arr mem 0 lda) i j) ∧
    (∀ i j, i < n → j < n → ¬ inTri u i j → arr mem' 0 lda i j = arr mem 0 lda i j) ∧
    (∀ k x, (k = 0 → ∀ i j, i < n → j < n → x ≠ i + j * lda) → mem' (.usr k, x) = mem (.usr k, x)) := by
  unfold zpotrf at hx
  split at hx
  · rename_i hq
    subst hq
    have hf : ∀ x, mem' x = mem x := fun x => hx.frame x (by simp [tasks])
    exact ⟨fun i hi => absurd hi (Nat.not_lt_zero _), fun i j hi => absurd hi (Nat.not_lt_zero _),
      fun i j hi => absurd hi (Nat.not_lt_zero _), fun k x _ => hf _⟩
  · rename_i hq
    rw [ompZpotrf_eq hq] at hx
    have hA := al_t (nb := nb) (dims := potDims n) hnb 0
    have hco : CodeOK (pzpotrf pk info dv u (tMat nb (potDims n) 0)) := pzpotrf_codeOK (N := n) hpk hA rfl rfl
    obtain ⟨hf1, hf2⟩ := gdriverK_frame hnb pot_sq (pot_good hnb hpk) (pot_onTiles hnb) hx
    obtain ⟨s, hin, hz, hout⟩ := gdriverK_success hnb (pot_ld hl) pot_sq (by simp) (by simp)
      (pot_good hnb hpk) (pot_onTiles hnb) hco hx
    have hch := pzpotrf_ok (N := n) (u := u) hpk hdv hA rfl rfl s hz
    have hI : ∀ i j, i < n → j < n → inTri u i j → (tMat nb (potDims n) 0).el s i j = arr mem 0 lda i j :=
      fun i j hi hj h => hin 0 (by simp) i j hi hj (stOK_some_div h)
    have hO : ∀ i j, i < n → j < n → inTri u i j → (tMat nb (potDims n) 0).el
        (texec (tasks (pzpotrf pk info dv u (tMat nb (potDims n) 0))) s) i j = arr mem' 0 lda i j := by
      intro i j hi hj h
      have := hout 0 (by simp) i j hi hj
      rw [if_pos (stOK_some_div h)] at this
      exact this.symm
    have hch' : Chol n (lowE u (arr mem 0 lda)) (lowE u (arr mem' 0 lda)) :=
      hch.congr (fun r c hc hr => lowE_congr hc fun i j h hi hj => hI i j (by omega) (by omega) h)
        (fun r c hc hr => lowE_congr hc fun i j h hi hj => hO i j (by omega) (by omega) h)
    have hdiag : ∀ i, i < n → PosRe (arr mem' 0 lda i i) := by
      intro i hi
      have := hch'.pos i hi
      unfold lowE at this
      cases u
      · simp only [reduceCtorEq, if_false] at this
        refine ⟨?_, ?_⟩
        · have h1 := this.1; rw [star_star] at h1; exact h1.symm
        · have h1 := this.1; rw [star_star] at h1
          have h2 := this.2; rw [← h1] at h2; exact h2
      · simpa using this
    refine ⟨hdiag, ?_, ?_, ?_⟩
    · intro i j hi hj
      have h1 := Chol_full hch' hi hj
      have h2 : (if j ≤ i then hd (lowE u (arr mem 0 lda)) i j else star (hd (lowE u (arr mem 0 lda)) j i)) =
          herE u (arr mem 0 lda) i j := by
        have := congrFun (congrFun (hermM_lowE u (arr mem 0 lda) n) ⟨i, hi⟩) ⟨j, hj⟩
        simpa [hermM, herM] using this
      rw [h2] at h1
      rw [← h1]
      cases u
      · rw [if_neg (by simp)]
        refine sum_congr rfl fun l _ => ?_
        simp only [lowE, reduceCtorEq, if_false, trE_if, inTri]
        by_cases h5 : l ≤ i <;> by_cases h6 : l ≤ j <;> simp [h5, h6]
      · rw [if_pos rfl]
        refine sum_congr rfl fun l _ => ?_
        simp only [lowE, if_true, trE_if, inTri]
    · intro i j hi hj h
      have := hout 0 (by simp) i j hi hj
      rw [pzpotrf_frame (N := n) hA rfl rfl s h] at this
      show mem' _ = mem _
      by_cases hst : stOK (some u) (i / nb) (j / nb)
      · rw [if_pos hst] at this
        exact this.trans (hin 0 (by simp) i j hi hj hst)
      · rw [if_neg hst] at this; exact this
    · intro k x hk
      by_cases hk0 : k = 0
      · subst hk0; exact hf2 0 x (hk rfl)
      · exact hf1 k (by simpa using hk0) x

open scoped ComplexOrder in
/-- **C16.** A non-zero value `p` returned by `plasma_zpotrf` is positive, at most `n`, and
is the order of the first leading submatrix that is not positive definite; in particular
a positive definite matrix gives 0 and every execution returns the same value. -/
theorem C16_potrf_info {nb : Nat} (hnb : 0 < nb) {pk : Uplo → Nat → Tl 𝕜 → Tl 𝕜} {info : Uplo → Nat → Tl 𝕜 → Nat}
    (hpk : IsPotrf pk info) {dv : 𝕜 → 𝕜 → 𝕜} (hdv : IsDiv dv) (u : Uplo) (n lda : Nat) (hl : n ≤ lda)
    (mem mem' : Buf × Nat → 𝕜) (st : Int)
    (hx : GExec (drvEnvK nb (potDims n) (ld1 lda) (fun _ => some u)) (zpotrf nb pk info dv u n) mem mem' st) :
    (st = 0 ↔ (herM u (arr mem 0 lda) n).PosDef) ∧
    (st ≠ 0 → ∃ p : Nat, st = p ∧ 1 ≤ p ∧ p ≤ n ∧ ¬ (herM u (arr mem 0 lda) p).PosDef ∧
      ∀ k, k < p → (herM u (arr mem 0 lda) k).PosDef) ∧
    (∀ mem2 st2, GExec (drvEnvK nb (potDims n) (ld1 lda) (fun _ => some u)) (zpotrf nb pk info dv u n) mem mem2 st2 →
      st2 = st) := by
  have main : ∀ mem' st,
      GExec (drvEnvK nb (potDims n) (ld1 lda) (fun _ => some u)) (zpotrf nb pk info dv u n) mem mem' st →
      (st = 0 → ∃ L, Chol n (lowE u (arr mem 0 lda)) L) ∧
      (st ≠ 0 → ∃ q : Nat, st = (q : Int) + 1 ∧ q < n ∧ (∃ L, Chol q (lowE u (arr mem 0 lda)) L) ∧
        ¬ ∃ L, Chol (q + 1) (lowE u (arr mem 0 lda)) L) := by
    intro mem' st hx
    unfold zpotrf at hx
    split at hx
    · rename_i hq
      subst hq
      refine ⟨fun _ => ⟨fun _ _ => 0, fun i hi => absurd hi (Nat.not_lt_zero _),
        fun r c _ hr => absurd hr (Nat.not_lt_zero _)⟩, fun h0 => ?_⟩
      obtain ⟨i, hi, -⟩ := hx.failure (drvEnvK_wf hnb (pot_ld hl) pot_sq) (by simp [tasks, Good.nil])
        CodeOK.nil h0
      simp at hi
    · rename_i hq
      rw [ompZpotrf_eq hq] at hx
      have hA := al_t (nb := nb) (dims := potDims n) hnb 0
      have hco : CodeOK (pzpotrf pk info dv u (tMat nb (potDims n) 0)) := pzpotrf_codeOK (N := n) hpk hA rfl rfl
      have hcg : ∀ (s : Store (Buf × Nat × Nat) 𝕜) q, q ≤ n →
          (∀ k ∈ [0], ∀ r c, r < (potDims n k).1 → c < (potDims n k).2 → stOK (some u) (r / nb) (c / nb) →
          (tMat nb (potDims n) k).el s r c = mem (.usr k, r + c * ld1 lda k)) → ∀ L,
          (Chol q (lowE u ((tMat nb (potDims n) 0).el s)) L ↔ Chol q (lowE u (arr mem 0 lda)) L) := by
        intro s q hqn hin L
        have hI : ∀ i j, i < n → j < n → inTri u i j → (tMat nb (potDims n) 0).el s i j = arr mem 0 lda i j :=
          fun i j hi hj h => hin 0 (by simp) i j hi hj (stOK_some_div h)
        constructor <;> intro h
        · exact h.congr (fun r c hc hr => lowE_congr hc fun i j h hi hj => hI i j (by omega) (by omega) h)
            (fun _ _ _ _ => rfl)
        · exact h.congr (fun r c hc hr => lowE_congr hc fun i j h hi hj => (hI i j (by omega) (by omega) h).symm)
            (fun _ _ _ _ => rfl)
      constructor
      · rintro rfl
        obtain ⟨s, hin, hz, -⟩ := gdriverK_success hnb (pot_ld hl) pot_sq (by simp) (by simp)
          (pot_good hnb hpk) (pot_onTiles hnb) hco hx
        exact ⟨_, (hcg s n (le_refl _) hin _).mp (pzpotrf_ok (N := n) (u := u) hpk hdv hA rfl rfl s hz)⟩
      · intro h0
        obtain ⟨s, hin, i, hi, hc, hfst⟩ := gdriverK_failure hnb (pot_ld hl) pot_sq (by simp)
          (pot_good hnb hpk) hco hx h0
        obtain ⟨q, hq1, hqn, hq2, hq3⟩ := pzpotrf_bad (N := n) (u := u) hpk hdv hA rfl rfl s (i := i)
          (by rw [hc]; exact h0) (hfst (pzpotrf_chain (N := n) hA rfl rfl))
        refine ⟨q, by rw [← hc]; exact hq1, hqn, ?_, ?_⟩
        · obtain ⟨L, hL⟩ := hq2; exact ⟨L, (hcg s q (le_of_lt hqn) hin L).mp hL⟩
        · rintro ⟨L, hL⟩; exact hq3 ⟨L, (hcg s (q + 1) hqn hin L).mpr hL⟩
  have hpd : ∀ k, (herM u (arr mem 0 lda) k).PosDef ↔ ∃ L, Chol k (lowE u (arr mem 0 lda)) L := by
    intro k; rw [← hermM_lowE]; exact posDef_iff_chol
  obtain ⟨m1, m2⟩ := main mem' st hx
  refine ⟨⟨fun h => (hpd n).mpr (m1 h), fun h => ?_⟩, ?_, ?_⟩
  · by_contra h0
    obtain ⟨q, -, hqn, -, hno⟩ := m2 h0
    obtain ⟨L, hL⟩ := (hpd n).mp h
    exact hno ⟨L, hL.mono hqn⟩
  · intro h0
    obtain ⟨q, hq, hqn, ⟨L, hL⟩, hno⟩ := m2 h0
    refine ⟨q + 1, by rw [hq]; push_cast; rfl, by omega, hqn, fun h => hno ((hpd _).mp h), ?_⟩
    intro k hk
    exact (hpd k).mpr ⟨L, hL.mono (by omega)⟩
  · intro mem2 st2 hx2
    obtain ⟨n1, n2⟩ := main mem2 st2 hx2
    by_cases h0 : st = 0 <;> by_cases h0' : st2 = 0
    · rw [h0, h0']
    · obtain ⟨L, hL⟩ := m1 h0
      obtain ⟨q, -, hqn, -, hno⟩ := n2 h0'
      exact absurd ⟨L, hL.mono hqn⟩ hno
    · obtain ⟨L, hL⟩ := n1 h0'
      obtain ⟨q, -, hqn, -, hno⟩ := m2 h0
      exact absurd ⟨L, hL.mono hqn⟩ hno
    · obtain ⟨q, hq, hqn, ⟨L, hL⟩, hno⟩ := m2 h0
      obtain ⟨q', hq', hqn', ⟨L', hL'⟩, hno'⟩ := n2 h0'
      have h1 : q' ≤ q := by
        by_contra h; exact hno ⟨L', hL'.mono (by omega)⟩
      have h2 : q ≤ q' := by
        by_contra h; exact hno' ⟨L, hL.mono (by omega)⟩
      rw [hq, hq']; omega

/-! ### C42: after a failure -/

/-- **C42.** In any parallel region started with status zero, consider a reachable state
in which a failure has been recorded.  From there on: the status never returns to zero;
guarded tasks that have not started never start; a location changes only if it is written
by a task that was already running or is not guarded.  Conversely a non-zero status is
the code returned by a kernel that has run, so that a region without a failing kernel
ends with status 0. -/
theorem C42_after_failure {K L V : Type} (p : List (GTask K L V)) (hsound : ∀ t ∈ p, ∀ e ∈ t.evs, e.Sound)
    (mem : L → V) (s : GState L V) (h0 : GReach p (GState.init mem 0) s) :
    (s.status ≠ 0 → ∀ s', GReach p s s' →
      s'.status ≠ 0 ∧
      (∀ i t, p[i]? = some t → t.guard = true → s.pc i = .waiting → ∀ j c, s'.pc i ≠ .running j c) ∧
      (∀ x, (∀ i t, p[i]? = some t → (t.guard = false ∨ ∃ j c, s.pc i = .running j c) →
        ∀ e ∈ t.evs, x ∉ e.wr) → s'.mem x = s.mem x)) ∧
    (s.status ≠ 0 → ∃ i t s1, p[i]? = some t ∧ GReach p (GState.init mem 0) s1 ∧ GReach p s1 s ∧
      s1.pc i = .waiting ∧ t.code s1.mem = s.status) ∧
    ((∀ t ∈ p, ∀ m, t.code m = 0) → s.status = 0) := by
  have hcode : s.status ≠ 0 → ∃ i t s1, p[i]? = some t ∧ GReach p (GState.init mem 0) s1 ∧ GReach p s1 s ∧
      s1.pc i = .waiting ∧ t.code s1.mem = s.status := by
    have inv : (∀ i j c, s.pc i = .running j c → ∃ t s1, p[i]? = some t ∧ GReach p (GState.init mem 0) s1 ∧
        GReach p s1 s ∧ s1.pc i = .waiting ∧ t.code s1.mem = c) ∧
        (s.status ≠ 0 → ∃ i t s1, p[i]? = some t ∧ GReach p (GState.init mem 0) s1 ∧ GReach p s1 s ∧
          s1.pc i = .waiting ∧ t.code s1.mem = s.status) := by
      induction h0 with
      | refl => exact ⟨fun i j c h => by simp [GState.init] at h, fun h => absurd rfl h⟩
      | @tail m z hm hz ih =>
        obtain ⟨ih1, ih2⟩ := ih
        have ext : ∀ s1, GReach p s1 m → GReach p s1 z := fun s1 h => h.tail hz
        have old : ∀ i c, (∃ t s1, p[i]? = some t ∧ GReach p (GState.init mem 0) s1 ∧
            GReach p s1 m ∧ s1.pc i = .waiting ∧ t.code s1.mem = c) →
            ∃ t s1, p[i]? = some t ∧ GReach p (GState.init mem 0) s1 ∧
            GReach p s1 z ∧ s1.pc i = .waiting ∧ t.code s1.mem = c := by
          rintro i c ⟨t, s1, a1, a2, a3, a4⟩; exact ⟨t, s1, a1, a2, ext s1 a3, a4⟩
        have old' : m.status ≠ 0 → ∃ i t s1, p[i]? = some t ∧ GReach p (GState.init mem 0) s1 ∧
            GReach p s1 z ∧ s1.pc i = .waiting ∧ t.code s1.mem = m.status := by
          intro h; obtain ⟨i, h⟩ := ih2 h; exact ⟨i, old i _ h⟩
        cases hz with
        | start i t ht hw hr hg =>
          refine ⟨fun k j c hk => ?_, old'⟩
          by_cases hki : k = i
          · subst hki
            simp at hk
            obtain ⟨-, rfl⟩ := hk
            exact ⟨t, m, ht, hm, ext m .refl, hw, rfl⟩
          · exact old k c (ih1 k j c (by simpa [Function.update_of_ne hki] using hk))
        | event i j c t e ht hp he =>
          refine ⟨fun k j' c' hk => ?_, old'⟩
          by_cases hki : k = i
          · subst hki
            simp at hk
            obtain ⟨-, rfl⟩ := hk
            exact old k c (ih1 k j c hp)
          · exact old k c' (ih1 k j' c' (by simpa [Function.update_of_ne hki] using hk))
        | finish i c t ht hp =>
          refine ⟨fun k j' c' hk => ?_, fun hne => ?_⟩
          · by_cases hki : k = i
            · subst hki; simp at hk
            · exact old k c' (ih1 k j' c' (by simpa [Function.update_of_ne hki] using hk))
          · dsimp only at hne ⊢
            by_cases hc : c = 0
            · simp only [hc, if_true] at hne old' ⊢
              exact old' hne
            · simp only [hc, if_false] at hne old ⊢
              exact ⟨i, old i c (ih1 i _ c hp)⟩
        | skip i hi hw hst =>
          refine ⟨fun k j' c' hk => ?_, old'⟩
          by_cases hki : k = i
          · subst hki; simp at hk
          · exact old k c' (ih1 k j' c' (by simpa [Function.update_of_ne hki] using hk))
    exact inv.2
  refine ⟨fun hs s' hr => ⟨hr.status_ne hs, ?_, (hr.after_failure hsound hs).2.2⟩, hcode, ?_⟩
  · intro i t hi hg hw j c hrun
    rcases (hr.after_failure hsound hs).1 i t hi hg hw with h | h <;> rw [h] at hrun <;> cases hrun
  · intro hz
    by_contra hne
    obtain ⟨i, t, s1, hi, -, -, -, hc⟩ := hcode hne
    exact hne (hc ▸ hz t (List.mem_of_getElem? hi) _)

/-! ### Cases meeting the hypotheses -/

theorem zpotrf_exists {nb : Nat} (hnb : 0 < nb) {pk : Uplo → Nat → Tl 𝕜 → Tl 𝕜} {info : Uplo → Nat → Tl 𝕜 → Nat}
    (hpk : IsPotrf pk info) (dv : 𝕜 → 𝕜 → 𝕜) (u : Uplo) {n lda : Nat} (hn : 0 < n) (hl : n ≤ lda)
    (mem : Buf × Nat → 𝕜) :
    ∃ mem' st, GExec (drvEnvK nb (potDims n) (ld1 lda) (fun _ => some u)) (zpotrf nb pk info dv u n) mem mem' st := by
  unfold zpotrf
  rw [if_neg (by omega), ompZpotrf_eq (by omega)]
  exact gdriverK_exists hnb (pot_ld hl) pot_sq (pot_good hnb hpk) mem

/-- The array `[4 2; 2 5]`, column-major with leading dimension 3. -/
noncomputable def potEx : Buf × Nat → ℝ := fun x =>
  if x = (.usr 0, 0) then 4 else if x = (.usr 0, 1) then 2 else if x = (.usr 0, 3) then 2
  else if x = (.usr 0, 4) then 5 else 0

noncomputable def rdv (x y : ℝ) : ℝ := if y = 0 then 7 else x / y

theorem rdv_isDiv : IsDiv rdv := ⟨fun x y hy => by simp [rdv, hy]⟩

/-- `potEx` is positive definite, so executions of `plasma_zpotrf` exist, return 0, and
`C15_potrf` applies. -/
example : ∃ pk info mem', IsPotrf pk info ∧
    GExec (drvEnvK 1 (potDims 2) (ld1 3) (fun _ => some .lower)) (zpotrf 1 pk info rdv .lower 2) potEx mem' 0 := by
  classical
  obtain ⟨pk, info, hpk⟩ := exists_isPotrf (𝕜 := ℝ)
  obtain ⟨mem', st, hx⟩ := zpotrf_exists (nb := 1) (by decide) hpk rdv .lower (n := 2) (lda := 3) (by decide)
    (by decide) potEx
  have hpd : (herM .lower (arr potEx 0 3) 2).PosDef := by
    rw [← hermM_lowE]
    refine Chol.posDef (L := fun i j => if i = 0 then 2 else if j = 0 then 1 else 2) ⟨?_, ?_⟩
    · intro i hi; refine ⟨by simp, ?_⟩
      interval_cases i <;> simp
    · intro r c hc hr
      interval_cases r <;> interval_cases c <;>
        simp [Finset.sum_range_succ, hd, lowE, arr, potEx, reP] <;> norm_num
  have := ((C16_potrf_info (by decide) hpk rdv_isDiv .lower 2 3 (by decide) potEx mem' st hx).1).mpr hpd
  exact ⟨pk, info, mem', hpk, this ▸ hx⟩

/-- A zero matrix of order 2: the value returned is 1. -/
example : ∃ pk info mem', IsPotrf pk info ∧
    GExec (drvEnvK 1 (potDims 2) (ld1 3) (fun _ => some .lower)) (zpotrf 1 pk info rdv .lower 2)
      (fun _ => (0 : ℝ)) mem' 1 := by
  classical
  obtain ⟨pk, info, hpk⟩ := exists_isPotrf (𝕜 := ℝ)
  obtain ⟨mem', st, hx⟩ := zpotrf_exists (nb := 1) (by decide) hpk rdv .lower (n := 2) (lda := 3) (by decide)
    (by decide) (fun _ => (0 : ℝ))
  obtain ⟨h1, h2, -⟩ := C16_potrf_info (by decide) hpk rdv_isDiv .lower 2 3 (by decide) _ mem' st hx
  have hno : ∀ k, 1 ≤ k → ¬ (herM .lower (arr (fun _ => (0 : ℝ)) 0 3) k).PosDef := by
    intro k hk h
    have := h.diag_pos (i := ⟨0, hk⟩)
    simp [herM, herE, arr] at this
  obtain ⟨p, hp, hp1, -, -, hp3⟩ := h2 (fun h => hno 2 (by decide) (h1.mp h))
  have : p = 1 := by
    by_contra hne
    exact hno 1 (le_refl _) (hp3 1 (by omega))
  refine ⟨pk, info, mem', hpk, ?_⟩
  rw [hp, this] at hx; exact hx

/-- A region of two tasks where the first fails with code 5 and the second would write. -/
def failEx : List (GTask Nat Nat Nat) :=
  [{ phase := 0, deps := [], evs := [], code := fun _ => 5 },
   { phase := 0, deps := [], evs := [⟨∅, {0}, fun s => Function.update s 0 1⟩] }]

/-- `C42_after_failure` applies: a state with a recorded failure is reachable in `failEx`,
with the second task still waiting. -/
example : (∀ t ∈ failEx, ∀ e ∈ t.evs, e.Sound) ∧
    ∃ s, GReach failEx (GState.init (fun _ => 0) 0) s ∧ s.status = 5 ∧ s.pc 1 = .waiting := by
  refine ⟨?_, ⟨⟨fun _ => 0, 5, Function.update (Function.update (fun _ => .waiting) 0 (.running 0 5)) 0 .done⟩,
    (Relation.ReflTransGen.single (GStep.start _ 0 failEx[0] rfl rfl ?_ (fun _ => rfl))).tail
      (GStep.finish _ 0 5 failEx[0] rfl rfl), rfl, rfl⟩⟩
  · intro t ht e he
    simp only [failEx, List.mem_cons, List.not_mem_nil, or_false] at ht
    rcases ht with rfl | rfl
    · simp at he
    · simp only [List.mem_singleton] at he
      subst he
      refine ⟨?_, ?_⟩
      · intro s l hl
        exact Function.update_of_ne (by simpa using hl) _ _
      · intro s t _ l hl
        have : l = 0 := by simpa using hl
        subst this; simp
  · intro b hb
    have := hb.1
    omega

end Verif.Props

/-
Properties of `plasma_zlauum` (C18), `plasma_ztrtri` (C19), `plasma_zpotri` and
`plasma_zpoinv` (C20).
-/
import Verif.Trtri
import Verif.Lauum
import Verif.Props.Posv

namespace Verif.Props

open Verif.Layout Verif.Tile Verif.Sched Finset

universe v

/-! ### Programs -/

section
variable {α : Type v} [Field α] [StarRing α] [DecidableEq α]

/-- `plasma_omp_ztrtri` (compute/ztrtri.c:200-249). -/
def ompZtrtri {M : Type} (tk : Uplo → Diag → Nat → Tl α → Tl α) (info : Uplo → Diag → Nat → Tl α → Nat)
    (dv : α → α → α) (u : Uplo) (d : Diag) (A : TMat M) : List (GTTask (M × Nat × Nat) α) :=
  if A.d.n = 0 then [] else pztrtri tk info dv u d A

/-- Tasks created by `plasma_ztrtri` (compute/ztrtri.c:70-146) for valid arguments: quick
return for `n = 0`, otherwise copy to tile storage, inversion, copy back. -/
def ztrtri (nb : Nat) (tk : Uplo → Diag → Nat → Tl α → Tl α) (info : Uplo → Diag → Nat → Tl α → Nat)
    (dv : α → α → α) (u : Uplo) (d : Diag) (n : Nat) : List (GTTask (Buf × Nat × Nat) α) :=
  if n = 0 then [] else
    gdriverK nb (potDims n) (fun _ => none) [0] (ompZtrtri tk info dv u d (tMat nb (potDims n) 0)) [0]

end

section
variable {𝕜 : Type v} [RCLike 𝕜] [DecidableEq 𝕜]

/-- `plasma_omp_zlauum` (compute/zlauum.c:184-225). -/
noncomputable def ompZlauum {M : Type} (lk : Uplo → Nat → Tl 𝕜 → Tl 𝕜) (u : Uplo) (A : TMat M) :
    List (TTask (M × Nat × Nat) 𝕜) :=
  if A.d.n = 0 then [] else pzlauum lk u A

/-- Tasks created by `plasma_zlauum` (compute/zlauum.c:66-140) for valid arguments. -/
noncomputable def zlauum (nb : Nat) (lk : Uplo → Nat → Tl 𝕜 → Tl 𝕜) (u : Uplo) (n : Nat) :
    List (TTask (Buf × Nat × Nat) 𝕜) :=
  if n = 0 then [] else
    driver nb (potDims n) [0] (ompZlauum lk u (tMat nb (potDims n) 0)) [0]

/-- `plasma_omp_zpotri` (compute/zpotri.c:187-231). -/
noncomputable def ompZpotri {M : Type} (tk : Uplo → Diag → Nat → Tl 𝕜 → Tl 𝕜)
    (info : Uplo → Diag → Nat → Tl 𝕜 → Nat) (lk : Uplo → Nat → Tl 𝕜 → Tl 𝕜) (dv : 𝕜 → 𝕜 → 𝕜) (u : Uplo)
    (A : TMat M) : List (GTTask (M × Nat × Nat) 𝕜) :=
  if A.d.n = 0 then [] else pztrtri tk info dv u .nonUnit A ++ okT (pzlauum lk u A)

/-- Tasks created by `plasma_zpotri` (compute/zpotri.c:65-140) for valid arguments. -/
noncomputable def zpotri (nb : Nat) (tk : Uplo → Diag → Nat → Tl 𝕜 → Tl 𝕜)
    (info : Uplo → Diag → Nat → Tl 𝕜 → Nat) (lk : Uplo → Nat → Tl 𝕜 → Tl 𝕜) (dv : 𝕜 → 𝕜 → 𝕜) (u : Uplo)
    (n : Nat) : List (GTTask (Buf × Nat × Nat) 𝕜) :=
  if n = 0 then [] else
    gdriverK nb (potDims n) (fun _ => none) [0] (ompZpotri tk info lk dv u (tMat nb (potDims n) 0)) [0]

/-- `plasma_omp_zpoinv` (compute/zpoinv.c:187-234). -/
noncomputable def ompZpoinv {M : Type} (pk : Uplo → Nat → Tl 𝕜 → Tl 𝕜) (pinfo : Uplo → Nat → Tl 𝕜 → Nat)
    (tk : Uplo → Diag → Nat → Tl 𝕜 → Tl 𝕜) (info : Uplo → Diag → Nat → Tl 𝕜 → Nat)
    (lk : Uplo → Nat → Tl 𝕜 → Tl 𝕜) (dv : 𝕜 → 𝕜 → 𝕜) (u : Uplo) (A : TMat M) :
    List (GTTask (M × Nat × Nat) 𝕜) :=
  if A.d.n = 0 then [] else
    pzpotrf pk pinfo dv u A ++ (pztrtri tk info dv u .nonUnit A ++ okT (pzlauum lk u A))

/-- Tasks created by `plasma_zpoinv` (compute/zpoinv.c:67-143) for valid arguments. -/
noncomputable def zpoinv (nb : Nat) (pk : Uplo → Nat → Tl 𝕜 → Tl 𝕜) (pinfo : Uplo → Nat → Tl 𝕜 → Nat)
    (tk : Uplo → Diag → Nat → Tl 𝕜 → Tl 𝕜) (info : Uplo → Diag → Nat → Tl 𝕜 → Nat)
    (lk : Uplo → Nat → Tl 𝕜 → Tl 𝕜) (dv : 𝕜 → 𝕜 → 𝕜) (u : Uplo) (n : Nat) :
    List (GTTask (Buf × Nat × Nat) 𝕜) :=
  if n = 0 then [] else
    gdriverK nb (potDims n) (fun _ => some u) [0]
      (ompZpoinv pk pinfo tk info lk dv u (tMat nb (potDims n) 0)) [0]

end

/-! ### Inverses -/

section
variable {α : Type v} [Field α]

/-- A right inverse of a square matrix is a left inverse. -/
theorem inv_comm {n : Nat} {P Q : Nat → Nat → α}
    (h : ∀ i j, i < n → j < n → ∑ l ∈ range n, P i l * Q l j = if i = j then 1 else 0) :
    ∀ i j, i < n → j < n → ∑ l ∈ range n, Q i l * P l j = if i = j then 1 else 0 := by
  let Pm : Matrix (Fin n) (Fin n) α := Matrix.of fun i j => P i j
  let Qm : Matrix (Fin n) (Fin n) α := Matrix.of fun i j => Q i j
  have hPQ : Pm * Qm = 1 := by
    ext i j
    rw [Matrix.mul_apply, Matrix.one_apply]
    have := h i j i.2 j.2
    rw [← Fin.sum_univ_eq_sum_range (fun l => P i l * Q l j)] at this
    simp only [Pm, Qm, Matrix.of_apply]
    rw [this]; simp [Fin.ext_iff]
  have hQP : Qm * Pm = 1 := mul_eq_one_comm.mp hPQ
  intro i j hi hj
  have := congrFun (congrFun hQP ⟨i, hi⟩) ⟨j, hj⟩
  rw [Matrix.mul_apply, Matrix.one_apply] at this
  simp only [Pm, Qm, Matrix.of_apply, Fin.mk.injEq] at this
  rw [Fin.sum_univ_eq_sum_range (fun l => Q i l * P l j)] at this
  exact this

/-- The lower view of an inverse. -/
theorem low_inv {u : Uplo} {d : Diag} {n : Nat} {T X : Nat → Nat → α}
    (h : ∀ r c, r < n → c < n → ∑ l ∈ range n, lowTr u d T r l * lowTr u d X l c = if r = c then 1 else 0) :
    ∀ i j, i < n → j < n → ∑ l ∈ range n, trE u d T i l * trE u d X l j = if i = j then 1 else 0 := by
  cases u
  · simp only [lowTr_eq, reduceCtorEq, if_false] at h
    refine inv_comm fun i j hi hj => ?_
    rw [← (show (if j = i then (1 : α) else 0) = if i = j then 1 else 0 by simp only [eq_comm]), ← h j i hj hi]
    exact sum_congr rfl fun l _ => mul_comm _ _
  · simp only [lowTr_eq, if_true] at h
    exact h

theorem trE_diag_mul {u : Uplo} {n : Nat} {T X : Nat → Nat → α}
    (h : ∀ i j, i < n → j < n → ∑ l ∈ range n, trE u .nonUnit T i l * trE u .nonUnit X l j =
      if i = j then 1 else 0) {i : Nat} (hi : i < n) : T i i * X i i = 1 := by
  have := h i i hi hi
  rw [if_pos rfl, sum_eq_single i] at this
  · simpa [trE] using this
  · intro l _ hl
    cases u
    · rcases Nat.lt_or_ge l i with h1 | h1
      · rw [trE_out (by simp only [inTri]; omega), zero_mul]
      · rw [trE_out (i := l) (by simp only [inTri]; omega), mul_zero]
    · rcases Nat.lt_or_ge l i with h1 | h1
      · rw [trE_out (i := l) (by simp only [inTri]; omega), mul_zero]
      · rw [trE_out (by simp only [inTri]; omega), zero_mul]
  · intro h; exact absurd (mem_range.mpr hi) h

end

theorem potn_sq {n : Nat} : ∀ k, stSq ((fun _ => none : Nat → Stor) k) (potDims n k).1 (potDims n k).2 :=
  fun _ => Or.inl rfl

/-! ### C19 -/

section
variable {α : Type v} [Field α] [StarRing α] [DecidableEq α]

/-- **C19.** Every execution of `plasma_ztrtri` returns 0 exactly when the triangular matrix
is invertible, that is for a unit triangular matrix or one without a zero on the diagonal.
Then the selected triangle of `pA` holds that of the inverse, and everything else --- the
other strict triangle, the diagonal of a unit triangular matrix, storage outside the matrix
--- is unchanged.  Otherwise the value returned is the position (from 1) of a zero on the
diagonal. -/
theorem C19_trtri {nb : Nat} (hnb : 0 < nb) {tk : Uplo → Diag → Nat → Tl α → Tl α}
    {info : Uplo → Diag → Nat → Tl α → Nat} (htk : IsTrtri tk info) {dv : α → α → α} (hdv : IsDiv dv)
    (u : Uplo) (d : Diag) (n lda : Nat) (hl : n ≤ lda) (mem mem' : Buf × Nat → α) (st : Int)
    (hx : GExec (drvEnvK nb (potDims n) (ld1 lda) (fun _ => none)) (ztrtri nb tk info dv u d n) mem mem' st) :
    (st = 0 → ∀ i j, i < n → j < n →
      ∑ l ∈ range n, trE u d (arr mem 0 lda) i l * trE u d (arr mem' 0 lda) l j = if i = j then 1 else 0) ∧
    (st = 0 → ∀ i j, i < n → j < n → ¬ inTri u i j ∨ (d = .unit ∧ i = j) →
      arr mem' 0 lda i j = arr mem 0 lda i j) ∧
    (st = 0 ↔ (d = .nonUnit → ∀ i, i < n → arr mem 0 lda i i ≠ 0)) ∧
    (st ≠ 0 → ∃ p : Nat, st = (p : Int) + 1 ∧ p < n ∧ arr mem 0 lda p p = 0) ∧
    (∀ k x, (k = 0 → ∀ i j, i < n → j < n → x ≠ i + j * lda) → mem' (.usr k, x) = mem (.usr k, x)) := by
  unfold ztrtri at hx
  split at hx
  · rename_i hq
    subst hq
    have hst : st = 0 := by
      by_contra h0
      obtain ⟨i, hi, -⟩ := hx.failure (drvEnvK_wf hnb (pot_ld hl) potn_sq) (by simp [tasks, Good.nil])
        CodeOK.nil h0
      simp at hi
    exact ⟨fun _ i j hi => absurd hi (Nat.not_lt_zero _), fun _ i j hi => absurd hi (Nat.not_lt_zero _),
      ⟨fun _ _ i hi => absurd hi (Nat.not_lt_zero _), fun _ => hst⟩, fun h => absurd hst h,
      fun k x _ => hx.frame _ (by simp [tasks])⟩
  · rename_i hq
    set A := tMat nb (potDims n) 0 with hAdef
    have homp : ompZtrtri tk info dv u d A = pztrtri tk info dv u d A := by
      unfold ompZtrtri; rw [if_neg]; exact hq
    rw [homp] at hx
    have hA : A.Al nb := al_t hnb 0
    have hco : CodeOK (pztrtri tk info dv u d A) := pztrtri_codeOK (N := n) htk hA rfl rfl
    have hg : Good (evalid (drvEnvK nb (potDims n) (ld1 lda) (fun _ => none))) (tasks (pztrtri tk info dv u d A)) :=
      pztrtri_good (N := n) htk ((fitsK_t hnb 0).mono fun _ _ _ => trivial) rfl rfl
    have hw : OnTiles (tasks (pztrtri tk info dv u d A)) :=
      Writes.mono (pztrtri_writes (N := n) hA rfl rfl) fun _ ht => ⟨0, ht⟩
    obtain ⟨hf1, hf2⟩ := gdriverK_frame hnb potn_sq hg hw hx
    have m1 : st = 0 → (∀ i j, i < n → j < n →
        ∑ l ∈ range n, trE u d (arr mem 0 lda) i l * trE u d (arr mem' 0 lda) l j = if i = j then 1 else 0) ∧
        (∀ i j, i < n → j < n → ¬ inTri u i j ∨ (d = .unit ∧ i = j) →
          arr mem' 0 lda i j = arr mem 0 lda i j) ∧
        (d = .nonUnit → ∀ i, i < n → arr mem 0 lda i i ≠ 0) := by
      rintro rfl
      obtain ⟨s, hin, hz, hout⟩ := gdriverK_success hnb (pot_ld hl) potn_sq (by simp) (by simp) hg hw hco hx
      have hI : ∀ i j, i < n → j < n → A.el s i j = arr mem 0 lda i j :=
        fun i j hi hj => hin 0 (by simp) i j hi hj trivial
      have hO : ∀ i j, i < n → j < n → arr mem' 0 lda i j = A.el (texec (tasks (pztrtri tk info dv u d A)) s) i j := by
        intro i j hi hj
        exact (hout 0 (by simp) i j hi hj).trans (if_pos trivial)
      have htr : ∀ {X Y : Nat → Nat → α}, (∀ i j, i < n → j < n → X i j = Y i j) → ∀ i j, i < n → j < n →
          trE u d X i j = trE u d Y i j := by
        intro X Y h i j hi hj
        unfold trE
        rw [h i j hi hj]
      refine ⟨?_, ?_, ?_⟩
      · intro i j hi hj
        rw [← low_inv (fun r c hr hc => pztrtri_ok htk hdv hA rfl rfl s hz hr hc) i j hi hj]
        refine sum_congr rfl fun l hl => ?_
        rw [mem_range] at hl
        rw [htr hI i l hi hl, htr hO l j hl hj]
      · intro i j hi hj h
        rw [hO i j hi hj, pztrtri_frame (N := n) hA rfl rfl s h, hI i j hi hj]
      · intro hd i hi
        rw [← hI i i hi hi]
        exact (pztrtri_zero (N := n) htk hA rfl rfl s).mp hz hd i hi
    have m2 : st ≠ 0 → d = .nonUnit ∧ ∃ p : Nat, st = (p : Int) + 1 ∧ p < n ∧ arr mem 0 lda p p = 0 := by
      intro h0
      obtain ⟨s, hin, i, hi, hc, -⟩ := gdriverK_failure hnb (pot_ld hl) potn_sq (by simp) hg hco hx h0
      obtain ⟨h1, r, h2, h3, h4⟩ := pztrtri_bad (N := n) htk hA rfl rfl s (i := i) (by rw [hc]; exact h0)
      refine ⟨h1, r, by rw [← hc]; exact h2, h3, ?_⟩
      rw [← h4]
      exact (hin 0 (by simp) r r h3 h3 trivial).symm
    refine ⟨fun h => (m1 h).1, fun h => (m1 h).2.1, ⟨fun h => (m1 h).2.2, fun h => ?_⟩, fun h => (m2 h).2, ?_⟩
    · by_contra h0
      obtain ⟨hd, p, -, hp, hz⟩ := m2 h0
      exact h hd p hp hz
    · intro k x hk
      by_cases hk0 : k = 0
      · subst hk0; exact hf2 0 x (hk rfl)
      · exact hf1 k (by simpa using hk0) x

end

/-! ### C18 -/

section
variable {𝕜 : Type v} [RCLike 𝕜] [DecidableEq 𝕜]

omit [DecidableEq 𝕜] in
theorem lauE_congr {u : Uplo} {n : Nat} {X Y : Nat → Nat → 𝕜}
    (h : ∀ i j, i < n → j < n → inTri u i j → X i j = Y i j) {i j : Nat} (hi : i < n) (hj : j < n) :
    lauE u n X i j = lauE u n Y i j := by
  have htr : ∀ i j, i < n → j < n → trE u .nonUnit X i j = trE u .nonUnit Y i j := by
    intro i j hi hj
    rw [trE_if, trE_if]
    by_cases ht : inTri u i j
    · rw [if_pos ht, if_pos ht, h i j hi hj ht]
    · rw [if_neg ht, if_neg ht]
  unfold lauE
  cases u
  · simp only [reduceCtorEq, if_false]
    refine sum_congr rfl fun l hl => ?_
    rw [mem_range] at hl
    rw [htr i l hi hl, htr j l hj hl]
  · simp only [if_true]
    refine sum_congr rfl fun l hl => ?_
    rw [mem_range] at hl
    rw [htr l i hl hi, htr l j hl hj]

omit [DecidableEq 𝕜] in
/-- **C18.** For a triangular factor with real diagonal, every execution of `plasma_zlauum`
overwrites the selected triangle of `pA` by that triangle of `L^H L` (lower) or `U U^H`
(upper); the other strict triangle and storage outside the matrix are unchanged. -/
theorem C18_lauum {nb : Nat} (hnb : 0 < nb) {lk : Uplo → Nat → Tl 𝕜 → Tl 𝕜} (hlk : IsLauum lk)
    (u : Uplo) (n lda : Nat) (hl : n ≤ lda) (mem mem' : Buf × Nat → 𝕜)
    (hreal : ∀ i, i < n → star (arr mem 0 lda i i) = arr mem 0 lda i i)
    (hx : Exec (drvEnv nb (potDims n) (ld1 lda)) (zlauum nb lk u n) mem mem') :
    (∀ i j, i < n → j < n → inTri u i j → arr mem' 0 lda i j =
      if u = .lower then
        ∑ l ∈ range n, star (trE .lower .nonUnit (arr mem 0 lda) l i) * trE .lower .nonUnit (arr mem 0 lda) l j
      else
        ∑ l ∈ range n, trE .upper .nonUnit (arr mem 0 lda) i l * star (trE .upper .nonUnit (arr mem 0 lda) j l)) ∧
    (∀ i j, i < n → j < n → ¬ inTri u i j → arr mem' 0 lda i j = arr mem 0 lda i j) ∧
    (∀ k x, (k = 0 → ∀ i j, i < n → j < n → x ≠ i + j * lda) → mem' (.usr k, x) = mem (.usr k, x)) := by
  unfold zlauum at hx
  split at hx
  · rename_i hq
    subst hq
    rw [hx.nil]
    exact ⟨fun i j hi => absurd hi (Nat.not_lt_zero _), fun i j hi => absurd hi (Nat.not_lt_zero _), fun _ _ _ => rfl⟩
  · rename_i hq
    set A := tMat nb (potDims n) 0 with hAdef
    have homp : ompZlauum lk u A = pzlauum lk u A := by
      unfold ompZlauum; rw [if_neg]; exact hq
    rw [homp] at hx
    have hA : A.Al nb := al_t hnb 0
    have hg : Good (evalid (drvEnv nb (potDims n) (ld1 lda))) (pzlauum lk u A) :=
      pzlauum_good (N := n) hlk ((fits_t hnb 0).mono fun _ _ _ => trivial) rfl rfl
    have hw : OnTiles (pzlauum lk u A) :=
      Writes.mono (pzlauum_writes (N := n) hA rfl rfl) fun _ ht => ⟨0, ht⟩
    obtain ⟨s, hin, hout, h3, h4⟩ := driver_correct hnb (pot_ld hl) (by simp) (by simp) hg hw hx
    have hI : ∀ i j, i < n → j < n → A.el s i j = arr mem 0 lda i j := hin 0 (by simp)
    have hO : ∀ i j, i < n → j < n → arr mem' 0 lda i j = A.el (texec (pzlauum lk u A) s) i j := hout 0 (by simp)
    refine ⟨?_, ?_, ?_⟩
    · intro i j hi hj hij
      rw [hO i j hi hj, pzlauum_el (N := n) hlk hA rfl rfl s (fun i hi => by rw [hI i i hi hi]; exact hreal i hi)
        hi hj hij, lauE_congr (fun i j hi hj _ => hI i j hi hj) hi hj]
      rfl
    · intro i j hi hj hij
      rw [hO i j hi hj, pzlauum_frame (N := n) hA rfl rfl s hij, hI i j hi hj]
    · intro k x hk
      by_cases hk0 : k = 0
      · subst hk0; exact h4 0 x (hk rfl)
      · exact h3 k (by simpa using hk0) x

/-! ### C20 -/

omit [DecidableEq 𝕜] in
/-- The product computed from the inverse of a Cholesky factor is the inverse of the
Hermitian matrix. -/
theorem lau_inv {u : Uplo} {n : Nat} {A X Y : Nat → Nat → 𝕜} (hc : Chol n (lowE u A) (lowE u X))
    (hi : ∀ i j, i < n → j < n → ∑ l ∈ range n, trE u .nonUnit X i l * trE u .nonUnit Y l j = if i = j then 1 else 0)
    {i j : Nat} (hi' : i < n) (hj' : j < n) :
    ∑ l ∈ range n, herE u A i l * lauE u n Y l j = if i = j then 1 else 0 := by
  let T : Matrix (Fin n) (Fin n) 𝕜 := Matrix.of fun i j => trE u .nonUnit X i j
  let Z : Matrix (Fin n) (Fin n) 𝕜 := Matrix.of fun i j => trE u .nonUnit Y i j
  let H : Matrix (Fin n) (Fin n) 𝕜 := Matrix.of fun i j => herE u A i j
  let R : Matrix (Fin n) (Fin n) 𝕜 := Matrix.of fun i j => lauE u n Y i j
  have hTZ : T * Z = 1 := by
    ext i j
    rw [Matrix.mul_apply, Matrix.one_apply]
    have := hi i j i.2 j.2
    rw [← Fin.sum_univ_eq_sum_range (fun l => trE u .nonUnit X i l * trE u .nonUnit Y l j)] at this
    simp only [T, Z, Matrix.of_apply]
    rw [this]; simp [Fin.ext_iff]
  have hZT : Z * T = 1 := mul_eq_one_comm.mp hTZ
  have hHR : H * R = 1 := by
    cases u
    · have h1 : H = T.conjTranspose * T := by
        ext i j
        rw [Matrix.mul_apply]
        have := chol_prod hc i.2 j.2
        rw [← Fin.sum_univ_eq_sum_range (fun q => opE (poT1 .upper) (trE .upper .nonUnit X) i q *
          opE (poT2 .upper) (trE .upper .nonUnit X) q j)] at this
        simp only [H, T, Matrix.of_apply, Matrix.conjTranspose_apply, ← this, poT1, poT2, if_true, opE]
      have h2 : R = Z * Z.conjTranspose := by
        ext i j
        rw [Matrix.mul_apply]
        simp only [R, Z, Matrix.of_apply, Matrix.conjTranspose_apply, lauE, reduceCtorEq, if_false]
        rw [Fin.sum_univ_eq_sum_range (fun l => trE .upper .nonUnit Y i l * star (trE .upper .nonUnit Y j l))]
      rw [h1, h2, Matrix.mul_assoc, ← Matrix.mul_assoc T, hTZ, Matrix.one_mul, ← Matrix.conjTranspose_mul, hZT,
        Matrix.conjTranspose_one]
    · have h1 : H = T * T.conjTranspose := by
        ext i j
        rw [Matrix.mul_apply]
        have := chol_prod hc i.2 j.2
        rw [← Fin.sum_univ_eq_sum_range (fun q => opE (poT1 .lower) (trE .lower .nonUnit X) i q *
          opE (poT2 .lower) (trE .lower .nonUnit X) q j)] at this
        simp only [H, T, Matrix.of_apply, Matrix.conjTranspose_apply, ← this, poT1, poT2, reduceCtorEq, if_false, opE]
      have h2 : R = Z.conjTranspose * Z := by
        ext i j
        rw [Matrix.mul_apply]
        simp only [R, Z, Matrix.of_apply, Matrix.conjTranspose_apply, lauE, if_true]
        rw [Fin.sum_univ_eq_sum_range (fun l => star (trE .lower .nonUnit Y l i) * trE .lower .nonUnit Y l j)]
      rw [h1, h2, Matrix.mul_assoc, ← Matrix.mul_assoc T.conjTranspose, ← Matrix.conjTranspose_mul, hZT,
        Matrix.conjTranspose_one, Matrix.one_mul, hTZ]
  have := congrFun (congrFun hHR ⟨i, hi'⟩) ⟨j, hj'⟩
  rw [Matrix.mul_apply, Matrix.one_apply] at this
  simp only [H, R, Matrix.of_apply, Fin.mk.injEq] at this
  rw [Fin.sum_univ_eq_sum_range (fun l => herE u A i l * lauE u n Y l j)] at this
  exact this

omit [DecidableEq 𝕜] in
theorem lauE_star (u : Uplo) (n : Nat) (Y : Nat → Nat → 𝕜) (i j : Nat) : star (lauE u n Y i j) = lauE u n Y j i := by
  unfold lauE
  cases u <;> simp only [reduceCtorEq, if_false, if_true, star_sum, star_mul', star_star] <;>
    exact sum_congr rfl fun l _ => mul_comm _ _

omit [DecidableEq 𝕜] in
theorem herE_lauE {u : Uplo} {n : Nat} {Y R : Nat → Nat → 𝕜}
    (h : ∀ i j, i < n → j < n → inTri u i j → R i j = lauE u n Y i j) {i j : Nat} (hi : i < n) (hj : j < n) :
    herE u R i j = lauE u n Y i j := by
  unfold herE
  by_cases hij : i = j
  · subst hij
    rw [if_pos rfl, h i i hi hi (by cases u <;> simp [inTri])]
    exact RCLike.conj_eq_iff_re.mp (lauE_star u n Y i i)
  · rw [if_neg hij]
    cases u
    · dsimp only
      split
      · exact h i j hi hj (by assumption)
      · rw [h j i hj hi (by simp only [inTri]; omega), lauE_star]
    · dsimp only
      split
      · exact h i j hi hj (by assumption)
      · rw [h j i hj hi (by simp only [inTri]; omega), lauE_star]

section
variable {M : Type} {tk : Uplo → Diag → Nat → Tl 𝕜 → Tl 𝕜} {info : Uplo → Diag → Nat → Tl 𝕜 → Nat}
  {lk : Uplo → Nat → Tl 𝕜 → Tl 𝕜} {dv : 𝕜 → 𝕜 → 𝕜} {u : Uplo} {A : TMat M} {b n : Nat}

/-- The two steps of `plasma_omp_zpotri` on a store that holds a Cholesky factor. -/
theorem potri_el (htk : IsTrtri tk info) (hlk : IsLauum lk) (hdv : IsDiv dv) (hA : A.Al b) (hm : A.d.m = n)
    (hn : A.d.n = n) (s : Store (M × Nat × Nat) 𝕜) {H : Nat → Nat → 𝕜} (hc : Chol n (lowE u H) (lowE u (A.el s))) :
    ∃ Y, (∀ i j, i < n → j < n → inTri u i j →
        A.el (texec (tasks (pztrtri tk info dv u .nonUnit A ++ okT (pzlauum lk u A))) s) i j = lauE u n Y i j) ∧
      ∀ i j, i < n → j < n → ∑ l ∈ range n, herE u H i l * lauE u n Y l j = if i = j then 1 else 0 := by
  have hdiag : ∀ i, i < n → PosRe (A.el s i i) := by
    intro i hi
    have := hc.pos i hi
    unfold lowE at this
    cases u
    · simp only [reduceCtorEq, if_false] at this
      have h1 := this.1; rw [star_star] at h1
      refine ⟨h1.symm, ?_⟩
      have h2 := this.2; rw [← h1] at h2; exact h2
    · simpa using this
  have hz : ∀ i, tcode (pztrtri tk info dv u .nonUnit A) s i = 0 :=
    (pztrtri_zero htk hA hm hn s).mpr fun _ r hr => (hdiag r hr).ne
  set s1 := texec (tasks (pztrtri tk info dv u .nonUnit A)) s with hs1
  have hinv := low_inv (u := u) (d := .nonUnit) (fun r c hr hc => pztrtri_ok htk hdv hA hm hn s hz hr hc)
  rw [← hs1] at hinv
  have hreal : ∀ i, i < n → star (A.el s1 i i) = A.el s1 i i := by
    intro i hi
    have h1 := trE_diag_mul hinv hi
    have h2 := congrArg star h1
    rw [star_mul', star_one, (hdiag i hi).1] at h2
    exact mul_left_cancel₀ (hdiag i hi).ne (h2.trans h1.symm)
  refine ⟨A.el s1, ?_, fun i j hi hj => lau_inv hc hinv hi hj⟩
  intro i j hi hj hij
  rw [tasks_append, tasks_okT, texec_append]
  exact pzlauum_el hlk hA hm hn s1 hreal hi hj hij

theorem potri_frame (hA : A.Al b) (hm : A.d.m = n) (hn : A.d.n = n) (s : Store (M × Nat × Nat) 𝕜) {i j : Nat}
    (h : ¬ inTri u i j) :
    A.el (texec (tasks (pztrtri tk info dv u .nonUnit A ++ okT (pzlauum lk u A))) s) i j = A.el s i j := by
  rw [tasks_append, tasks_okT, texec_append, pzlauum_frame hA hm hn _ h, pztrtri_frame hA hm hn s (Or.inl h)]

theorem potri_codeOK (htk : IsTrtri tk info) (hA : A.Al b) (hm : A.d.m = n) (hn : A.d.n = n) :
    CodeOK (pztrtri tk info dv u .nonUnit A ++ okT (pzlauum lk u A)) :=
  (pztrtri_codeOK htk hA hm hn).append (CodeOK.ok _)

theorem potri_good {env : M → MatEnv} (htk : IsTrtri tk info) (hlk : IsLauum lk) (hA : FitsOn env b (inTri u) A)
    (hm : A.d.m = n) (hn : A.d.n = n) :
    Good (evalid env) (tasks (pztrtri tk info dv u .nonUnit A ++ okT (pzlauum lk u A))) := by
  rw [tasks_append, tasks_okT]
  exact (pztrtri_good htk hA hm hn).append (pzlauum_good hlk hA hm hn)

theorem potri_writes (hA : A.Al b) (hm : A.d.m = n) (hn : A.d.n = n) :
    Writes (fun t => t.1 = A.id) (tasks (pztrtri tk info dv u .nonUnit A ++ okT (pzlauum lk u A))) := by
  rw [tasks_append, tasks_okT]
  exact (pztrtri_writes hA hm hn).append (pzlauum_writes hA hm hn)

end

/-- **C20, potrf followed by potri.** After a successful `plasma_zpotrf`, every execution of
`plasma_zpotri` returns 0 and leaves in the selected triangle that of the inverse of the
Hermitian matrix described by the selected triangle before the factorization.  The other
strict triangle and storage outside the matrix are as before the factorization. -/
theorem C20_potrf_potri {nb nb' : Nat} (hnb : 0 < nb) (hnb' : 0 < nb') {pk : Uplo → Nat → Tl 𝕜 → Tl 𝕜}
    {pinfo : Uplo → Nat → Tl 𝕜 → Nat} (hpk : IsPotrf pk pinfo) {tk : Uplo → Diag → Nat → Tl 𝕜 → Tl 𝕜}
    {info : Uplo → Diag → Nat → Tl 𝕜 → Nat} (htk : IsTrtri tk info) {lk : Uplo → Nat → Tl 𝕜 → Tl 𝕜}
    (hlk : IsLauum lk) {dv : 𝕜 → 𝕜 → 𝕜} (hdv : IsDiv dv) (u : Uplo) (n lda : Nat) (hl : n ≤ lda)
    (mem mem1 mem' : Buf × Nat → 𝕜) (st : Int)
    (hx : GExec (drvEnvK nb (potDims n) (ld1 lda) (fun _ => some u)) (zpotrf nb pk pinfo dv u n) mem mem1 0)
    (hx' : GExec (drvEnvK nb' (potDims n) (ld1 lda) (fun _ => none)) (zpotri nb' tk info lk dv u n) mem1 mem' st) :
    st = 0 ∧
    (∀ i, i < n → star (arr mem' 0 lda i i) = arr mem' 0 lda i i) ∧
    (∀ i j, i < n → j < n →
      ∑ l ∈ range n, herE u (arr mem 0 lda) i l * herE u (arr mem' 0 lda) l j = if i = j then 1 else 0) ∧
    (∀ i j, i < n → j < n → ¬ inTri u i j → arr mem' 0 lda i j = arr mem 0 lda i j) ∧
    (∀ k x, (k = 0 → ∀ i j, i < n → j < n → x ≠ i + j * lda) → mem' (.usr k, x) = mem (.usr k, x)) := by
  obtain ⟨c1, c2, c3, c4⟩ := C15_potrf hnb hpk hdv u n lda hl mem mem1 hx
  unfold zpotri at hx'
  split at hx'
  · rename_i hq
    subst hq
    have hst : st = 0 := by
      by_contra h0
      obtain ⟨i, hi, -⟩ := hx'.failure (drvEnvK_wf hnb' (pot_ld hl) potn_sq) (by simp [tasks, Good.nil])
        CodeOK.nil h0
      simp at hi
    exact ⟨hst, fun i hi => absurd hi (Nat.not_lt_zero _), fun i j hi => absurd hi (Nat.not_lt_zero _),
      fun i j hi => absurd hi (Nat.not_lt_zero _), fun k x h => (hx'.frame _ (by simp [tasks])).trans (c4 k x h)⟩
  · rename_i hq
    set A := tMat nb' (potDims n) 0 with hAdef
    have homp : ompZpotri tk info lk dv u A = pztrtri tk info dv u .nonUnit A ++ okT (pzlauum lk u A) := by
      unfold ompZpotri; rw [if_neg]; exact hq
    rw [homp] at hx'
    have hA : A.Al nb' := al_t hnb' 0
    have hco : CodeOK (pztrtri tk info dv u .nonUnit A ++ okT (pzlauum lk u A)) :=
      potri_codeOK (n := n) htk hA rfl rfl
    have hg : Good (evalid (drvEnvK nb' (potDims n) (ld1 lda) (fun _ => none)))
        (tasks (pztrtri tk info dv u .nonUnit A ++ okT (pzlauum lk u A))) :=
      potri_good (n := n) htk hlk ((fitsK_t hnb' 0).mono fun _ _ _ => trivial) rfl rfl
    have hw : OnTiles (tasks (pztrtri tk info dv u .nonUnit A ++ okT (pzlauum lk u A))) :=
      Writes.mono (potri_writes (n := n) hA rfl rfl) fun _ ht => ⟨0, ht⟩
    have hdne : ∀ i, i < n → arr mem1 0 lda i i ≠ 0 := fun i hi h0 => by
      have := (c1 i hi).2; rw [h0] at this; simp at this
    have hst : st = 0 := by
      by_contra h0
      obtain ⟨s, hin, i, hi, hc, -⟩ := gdriverK_failure hnb' (pot_ld hl) potn_sq (by simp) hg hco hx' h0
      have hz := (pztrtri_zero (N := n) (tk := tk) (info := info) (dv := dv) (u := u) (d := .nonUnit) htk hA rfl
        rfl s).mpr fun _ r hr => by
          rw [show A.el s r r = arr mem1 0 lda r r from hin 0 (by simp) r r hr hr trivial]; exact hdne r hr
      apply h0
      rw [← hc]
      rcases Nat.lt_or_ge i (pztrtri tk info dv u .nonUnit A).length with hlt | hge
      · rw [tcode_append_left _ _ _ hlt]; exact hz i
      · obtain ⟨j, rfl⟩ := Nat.exists_eq_add_of_le hge
        rw [tcode_append_right, tcode_ok]
    subst hst
    obtain ⟨hf1, hf2⟩ := gdriverK_frame hnb' potn_sq hg hw hx'
    obtain ⟨s, hin, hz, hout⟩ := gdriverK_success hnb' (pot_ld hl) potn_sq (by simp) (by simp) hg hw hco hx'
    have hI : ∀ i j, i < n → j < n → A.el s i j = arr mem1 0 lda i j :=
      fun i j hi hj => hin 0 (by simp) i j hi hj trivial
    have hO : ∀ i j, i < n → j < n → arr mem' 0 lda i j =
        A.el (texec (tasks (pztrtri tk info dv u .nonUnit A ++ okT (pzlauum lk u A))) s) i j := by
      intro i j hi hj
      exact (hout 0 (by simp) i j hi hj).trans (if_pos trivial)
    have hch : Chol n (lowE u (arr mem 0 lda)) (lowE u (A.el s)) := by
      have : Chol n (lowE u (arr mem 0 lda)) (lowE u (arr mem1 0 lda)) := C15_chol hnb hpk hdv u n lda hl mem mem1 hx
      exact this.congr (fun _ _ _ _ => rfl) (fun r c hc hr => lowE_congr hc fun i j h hi hj =>
        (hI i j (by omega) (by omega)).symm)
    obtain ⟨Y, hY1, hY2⟩ := potri_el (n := n) (u := u) htk hlk hdv hA rfl rfl s hch
    have hR : ∀ i j, i < n → j < n → inTri u i j → arr mem' 0 lda i j = lauE u n Y i j :=
      fun i j hi hj h => (hO i j hi hj).trans (hY1 i j hi hj h)
    refine ⟨rfl, ?_, ?_, ?_, ?_⟩
    · intro i hi
      rw [hR i i hi hi (by cases u <;> simp [inTri]), lauE_star]
    · intro i j hi hj
      rw [← hY2 i j hi hj]
      refine sum_congr rfl fun l hl => ?_
      rw [mem_range] at hl
      rw [herE_lauE hR hl hj]
    · intro i j hi hj h
      rw [hO i j hi hj, potri_frame (n := n) hA rfl rfl s h, hI i j hi hj, c3 i j hi hj h]
    · intro k x hk
      refine Eq.trans ?_ (c4 k x hk)
      by_cases hk0 : k = 0
      · subst hk0; exact hf2 0 x (hk rfl)
      · exact hf1 k (by simpa using hk0) x

open scoped ComplexOrder in
/-- **C20, poinv.** `plasma_zpoinv` returns 0 exactly for positive definite matrices; then
the selected triangle holds that of the inverse, the other strict triangle and storage
outside the matrix are unchanged. -/
theorem C20_poinv {nb : Nat} (hnb : 0 < nb) {pk : Uplo → Nat → Tl 𝕜 → Tl 𝕜}
    {pinfo : Uplo → Nat → Tl 𝕜 → Nat} (hpk : IsPotrf pk pinfo) {tk : Uplo → Diag → Nat → Tl 𝕜 → Tl 𝕜}
    {info : Uplo → Diag → Nat → Tl 𝕜 → Nat} (htk : IsTrtri tk info) {lk : Uplo → Nat → Tl 𝕜 → Tl 𝕜}
    (hlk : IsLauum lk) {dv : 𝕜 → 𝕜 → 𝕜} (hdv : IsDiv dv) (u : Uplo) (n lda : Nat) (hl : n ≤ lda)
    (mem mem' : Buf × Nat → 𝕜) (st : Int)
    (hx : GExec (drvEnvK nb (potDims n) (ld1 lda) (fun _ => some u)) (zpoinv nb pk pinfo tk info lk dv u n)
      mem mem' st) :
    (st = 0 ↔ (herM u (arr mem 0 lda) n).PosDef) ∧
    (st = 0 →
      (∀ i, i < n → star (arr mem' 0 lda i i) = arr mem' 0 lda i i) ∧
      (∀ i j, i < n → j < n →
        ∑ l ∈ range n, herE u (arr mem 0 lda) i l * herE u (arr mem' 0 lda) l j = if i = j then 1 else 0) ∧
      (∀ i j, i < n → j < n → ¬ inTri u i j → arr mem' 0 lda i j = arr mem 0 lda i j)) ∧
    (∀ k x, (k = 0 → ∀ i j, i < n → j < n → x ≠ i + j * lda) → mem' (.usr k, x) = mem (.usr k, x)) := by
  have hpd : ∀ k, (herM u (arr mem 0 lda) k).PosDef ↔ ∃ L, Chol k (lowE u (arr mem 0 lda)) L := by
    intro k; rw [← hermM_lowE]; exact posDef_iff_chol
  unfold zpoinv at hx
  split at hx
  · rename_i hq
    subst hq
    have hst : st = 0 := by
      by_contra h0
      obtain ⟨i, hi, -⟩ := hx.failure (drvEnvK_wf hnb (pot_ld hl) pot_sq) (by simp [tasks, Good.nil])
        CodeOK.nil h0
      simp at hi
    exact ⟨⟨fun _ => (hpd 0).mpr ⟨fun _ _ => 0,
      fun i hi => absurd hi (Nat.not_lt_zero _), fun r c _ hr => absurd hr (Nat.not_lt_zero _)⟩, fun _ => hst⟩,
      fun _ => ⟨fun i hi => absurd hi (Nat.not_lt_zero _), fun i j hi => absurd hi (Nat.not_lt_zero _),
      fun i j hi => absurd hi (Nat.not_lt_zero _)⟩, fun k x h => hx.frame _ (by simp [tasks])⟩
  · rename_i hq
    set A := tMat nb (potDims n) 0 with hAdef
    set Q := pztrtri tk info dv u .nonUnit A ++ okT (pzlauum lk u A) with hQ
    have homp : ompZpoinv pk pinfo tk info lk dv u A = pzpotrf pk pinfo dv u A ++ Q := by
      unfold ompZpoinv; rw [if_neg]; exact hq
    rw [homp] at hx
    have hA : A.Al nb := al_t hnb 0
    have hco : CodeOK (pzpotrf pk pinfo dv u A ++ Q) :=
      (pzpotrf_codeOK (N := n) hpk hA rfl rfl).append (potri_codeOK (n := n) htk hA rfl rfl)
    have hg : Good (evalid (drvEnvK nb (potDims n) (ld1 lda) (fun _ => some u))) (tasks (pzpotrf pk pinfo dv u A ++ Q)) := by
      rw [tasks_append]
      exact (pot_good hnb hpk).append (potri_good (n := n) htk hlk (fitsK_t hnb 0) rfl rfl)
    have hw : OnTiles (tasks (pzpotrf pk pinfo dv u A ++ Q)) := by
      rw [tasks_append]
      exact (pot_onTiles hnb).append (Writes.mono (potri_writes (n := n) hA rfl rfl) fun _ ht => ⟨0, ht⟩)
    obtain ⟨hf1, hf2⟩ := gdriverK_frame hnb pot_sq hg hw hx
    have hcg : ∀ (s : Store (Buf × Nat × Nat) 𝕜) q, q ≤ n →
        (∀ k ∈ [0], ∀ r c, r < (potDims n k).1 → c < (potDims n k).2 → stOK (some u) (r / nb) (c / nb) →
        (tMat nb (potDims n) k).el s r c = mem (.usr k, r + c * ld1 lda k)) → ∀ L,
        (Chol q (lowE u (A.el s)) L ↔ Chol q (lowE u (arr mem 0 lda)) L) := by
      intro s q hqn hin L
      have hI : ∀ i j, i < n → j < n → inTri u i j → A.el s i j = arr mem 0 lda i j :=
        fun i j hi hj h => hin 0 (by simp) i j hi hj (stOK_some_div h)
      constructor <;> intro h
      · exact h.congr (fun r c hc hr => lowE_congr hc fun i j h hi hj => hI i j (by omega) (by omega) h)
          (fun _ _ _ _ => rfl)
      · exact h.congr (fun r c hc hr => lowE_congr hc fun i j h hi hj => (hI i j (by omega) (by omega) h).symm)
          (fun _ _ _ _ => rfl)
    have m1 : st = 0 → (∃ L, Chol n (lowE u (arr mem 0 lda)) L) ∧
        (∀ i, i < n → star (arr mem' 0 lda i i) = arr mem' 0 lda i i) ∧
        (∀ i j, i < n → j < n →
          ∑ l ∈ range n, herE u (arr mem 0 lda) i l * herE u (arr mem' 0 lda) l j = if i = j then 1 else 0) ∧
        (∀ i j, i < n → j < n → ¬ inTri u i j → arr mem' 0 lda i j = arr mem 0 lda i j) := by
      rintro rfl
      obtain ⟨s, hin, hz, hout⟩ := gdriverK_success hnb (pot_ld hl) pot_sq (by simp) (by simp) hg hw hco hx
      have hz1 : ∀ i, tcode (pzpotrf pk pinfo dv u A) s i = 0 := by
        intro i
        by_cases hi : i < (pzpotrf pk pinfo dv u A).length
        · rw [← tcode_append_left _ Q s hi]; exact hz i
        · exact tcode_len _ _ (by omega)
      have hchol := (hcg s n (le_refl _) hin _).mp (pzpotrf_ok (N := n) (u := u) hpk hdv hA rfl rfl s hz1)
      refine ⟨⟨_, hchol⟩, ?_⟩
      obtain ⟨Y, hY1, hY2⟩ := potri_el (n := n) (u := u) htk hlk hdv hA rfl rfl _ hchol
      rw [← hQ, ← texec_append, ← tasks_append] at hY1
      have hR : ∀ i j, i < n → j < n → inTri u i j → arr mem' 0 lda i j = lauE u n Y i j := by
        intro i j hi hj h
        have := hout 0 (by simp) i j hi hj
        rw [if_pos (stOK_some_div h)] at this
        exact this.trans (hY1 i j hi hj h)
      refine ⟨?_, ?_, ?_⟩
      · intro i hi
        rw [hR i i hi hi (by cases u <;> simp [inTri]), lauE_star]
      · intro i j hi hj
        rw [← hY2 i j hi hj]
        refine sum_congr rfl fun l hl => ?_
        rw [mem_range] at hl
        rw [herE_lauE hR hl hj]
      · intro i j hi hj h
        have := hout 0 (by simp) i j hi hj
        rw [tasks_append, texec_append, hQ, potri_frame (n := n) hA rfl rfl _ h,
          pzpotrf_frame (N := n) hA rfl rfl s h] at this
        show mem' _ = mem _
        by_cases hst : stOK (some u) (i / nb) (j / nb)
        · rw [if_pos hst] at this
          exact this.trans (hin 0 (by simp) i j hi hj hst)
        · rw [if_neg hst] at this; exact this
    refine ⟨⟨fun h => (hpd n).mpr (m1 h).1, fun h => ?_⟩, fun h => (m1 h).2, ?_⟩
    · by_contra h0
      obtain ⟨L, hL⟩ := (hpd n).mp h
      obtain ⟨s, hin, i, hi, hc, -⟩ := gdriverK_failure hnb (pot_ld hl) pot_sq (by simp) hg hco hx h0
      have hz1 : ∀ i, tcode (pzpotrf pk pinfo dv u A) s i = 0 := by
        by_contra hne
        push Not at hne
        classical
        have hmin := Nat.find_spec hne
        obtain ⟨q, -, hqn, -, hq3⟩ := pzpotrf_bad (N := n) (u := u) hpk hdv hA rfl rfl s hmin
          (fun j hj => not_not.mp (Nat.find_min hne hj))
        exact hq3 ⟨L, (hcg s (q + 1) hqn hin L).mpr (hL.mono hqn)⟩
      have hchol := pzpotrf_ok (N := n) (u := u) hpk hdv hA rfl rfl s hz1
      have hz2 := (pztrtri_zero (N := n) (tk := tk) (info := info) (dv := dv) (u := u) (d := .nonUnit) htk hA rfl
        rfl (texec (tasks (pzpotrf pk pinfo dv u A)) s)).mpr fun _ r hr => by
          intro h0
          have := (hchol.pos r hr).2
          unfold lowE at this
          rw [h0] at this
          cases u <;> simp at this
      apply h0
      rw [← hc]
      rcases Nat.lt_or_ge i (pzpotrf pk pinfo dv u A).length with hlt | hge
      · rw [tcode_append_left _ _ _ hlt]; exact hz1 i
      · obtain ⟨j, rfl⟩ := Nat.exists_eq_add_of_le hge
        rw [tcode_append_right, hQ]
        rcases Nat.lt_or_ge j (pztrtri tk info dv u .nonUnit A).length with hlt | hge
        · rw [tcode_append_left _ _ _ hlt]; exact hz2 j
        · obtain ⟨j, rfl⟩ := Nat.exists_eq_add_of_le hge
          rw [tcode_append_right, tcode_ok]
    · intro k x hk
      by_cases hk0 : k = 0
      · subst hk0; exact hf2 0 x (hk rfl)
      · exact hf1 k (by simpa using hk0) x

end

/-! ### Cases meeting the hypotheses -/

/-- An execution of `plasma_ztrtri` with tiles of size 1 on the lower triangle of
`[4 2; 2 5]`; it returns 0. -/
example : ∃ tk info mem', IsTrtri tk info ∧
    GExec (drvEnvK 1 (potDims 2) (ld1 3) (fun _ => none)) (ztrtri 1 tk info rdv .lower .nonUnit 2) potEx mem' 0 := by
  classical
  obtain ⟨tk, info, htk⟩ := exists_isTrtri (α := ℝ)
  have hg : ∃ mem' st, GExec (drvEnvK 1 (potDims 2) (ld1 3) (fun _ => none))
      (ztrtri 1 tk info rdv .lower .nonUnit 2) potEx mem' st := by
    unfold ztrtri
    rw [if_neg (by decide)]
    refine gdriverK_exists (by decide) (pot_ld (by decide)) potn_sq ?_ _
    unfold ompZtrtri
    split
    · exact Good.nil
    · exact pztrtri_good (N := 2) htk ((fitsK_t (by decide) 0).mono fun _ _ _ => trivial) rfl rfl
  obtain ⟨mem', st, hx⟩ := hg
  have := (C19_trtri (by decide) htk rdv_isDiv .lower .nonUnit 2 3 (by decide) potEx mem' st hx).2.2.1.mpr
    (fun _ i hi => by interval_cases i <;> simp [arr, potEx])
  exact ⟨tk, info, mem', htk, this ▸ hx⟩

/-- The same array has a real diagonal and `plasma_zlauum` has an execution on it. -/
example : (∀ i, i < 2 → star (arr potEx 0 3 i i) = arr potEx 0 3 i i) ∧
    ∃ lk mem', IsLauum lk ∧ Exec (drvEnv 1 (potDims 2) (ld1 3)) (zlauum 1 lk .lower 2) potEx mem' := by
  obtain ⟨lk, hlk⟩ := exists_isLauum (𝕜 := ℝ)
  refine ⟨fun i _ => by simp, lk, ?_⟩
  unfold zlauum
  rw [if_neg (by decide)]
  obtain ⟨mem', h⟩ := driver_exists (nb := 1) (dims := potDims 2) (ld := ld1 3) (ins := [0]) (outs := [0]) (by decide)
    (pot_ld (by decide)) (P := ompZlauum lk .lower (tMat 1 (potDims 2) 0)) (by
      unfold ompZlauum
      split
      · exact Good.nil
      · exact pzlauum_good (N := 2) hlk ((fits_t (by decide) 0).mono fun _ _ _ => trivial) rfl rfl) potEx
  exact ⟨mem', hlk, h⟩

/-- `plasma_zpoinv` has an execution on `[4 2; 2 5]` that returns 0. -/
example : ∃ pk pinfo tk info lk mem', IsPotrf pk pinfo ∧ IsTrtri tk info ∧ IsLauum lk ∧
    GExec (drvEnvK 1 (potDims 2) (ld1 3) (fun _ => some .lower)) (zpoinv 1 pk pinfo tk info lk rdv .lower 2)
      potEx mem' 0 := by
  classical
  obtain ⟨pk, pinfo, hpk⟩ := exists_isPotrf (𝕜 := ℝ)
  obtain ⟨tk, info, htk⟩ := exists_isTrtri (α := ℝ)
  obtain ⟨lk, hlk⟩ := exists_isLauum (𝕜 := ℝ)
  have hg : ∃ mem' st, GExec (drvEnvK 1 (potDims 2) (ld1 3) (fun _ => some .lower))
      (zpoinv 1 pk pinfo tk info lk rdv .lower 2) potEx mem' st := by
    unfold zpoinv
    rw [if_neg (by decide)]
    refine gdriverK_exists (by decide) (pot_ld (by decide)) pot_sq ?_ _
    unfold ompZpoinv
    split
    · exact Good.nil
    · rw [tasks_append]
      exact (pot_good (by decide) hpk).append (potri_good (n := 2) htk hlk (fitsK_t (by decide) 0) rfl rfl)
  obtain ⟨mem', st, hx⟩ := hg
  have := (C20_poinv (by decide) hpk htk hlk rdv_isDiv .lower 2 3 (by decide) potEx mem' st hx).1.mpr potEx_posDef
  exact ⟨pk, pinfo, tk, info, lk, mem', hpk, htk, hlk, this ▸ hx⟩

end Verif.Props

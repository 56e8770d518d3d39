/-
Properties of `plasma_zpotrs` and `plasma_zposv`: C17.
-/
import Verif.Props.Potrf

namespace Verif.Props

open Verif.Layout Verif.Tile Verif.Sched Finset

universe v

variable {𝕜 : Type v} [RCLike 𝕜] [DecidableEq 𝕜]

/-- Transposition in the first solve (compute/zpotrs.c:270-271, compute/zposv.c:290). -/
def poT1 (u : Uplo) : Trans := if u = .upper then .conjTrans else .noTrans
/-- Transposition in the second solve (compute/zpotrs.c:277-278, compute/zposv.c:296). -/
def poT2 (u : Uplo) : Trans := if u = .upper then .noTrans else .conjTrans

/-- The two triangular solves (compute/zpotrs.c:270-282, compute/zposv.c:289-300). -/
def poSolve {M : Type} (dv : 𝕜 → 𝕜 → 𝕜) (u : Uplo) (A B : TMat M) : List (TTask (M × Nat × Nat) 𝕜) :=
  pztrsm dv .left u (poT1 u) .nonUnit 1 A B ++ pztrsm dv .left u (poT2 u) .nonUnit 1 A B

/-- `plasma_omp_zpotrs` (compute/zpotrs.c:226-283). -/
def ompZpotrs {M : Type} (dv : 𝕜 → 𝕜 → 𝕜) (u : Uplo) (A B : TMat M) : List (TTask (M × Nat × Nat) 𝕜) :=
  if A.d.n = 0 ∨ B.d.n = 0 then [] else poSolve dv u A B

/-- `plasma_omp_zposv` (compute/zposv.c:244-301). -/
noncomputable def ompZposv {M : Type} (pk : Uplo → Nat → Tl 𝕜 → Tl 𝕜) (info : Uplo → Nat → Tl 𝕜 → Nat)
    (dv : 𝕜 → 𝕜 → 𝕜) (u : Uplo) (A B : TMat M) : List (GTTask (M × Nat × Nat) 𝕜) :=
  if A.d.n = 0 ∨ B.d.n = 0 then [] else pzpotrf pk info dv u A ++ okT (poSolve dv u A B)

/-- Shapes of the arrays (compute/zpotrs.c:127-134, compute/zposv.c:140-147). -/
def posDims (n nrhs : Nat) : Nat → Nat × Nat
  | 0 => (n, n)
  | 1 => (n, nrhs)
  | _ => (0, 0)

/-- Tile storage of the arrays in `plasma_zposv` (compute/zposv.c:140-147). -/
def posSt (u : Uplo) : Nat → Stor
  | 0 => some u
  | _ => none

/-- Tasks created by `plasma_zpotrs` (compute/zpotrs.c:77-172) for valid arguments.  The
quick return is taken only if both `n` and `nrhs` are zero (line 113). -/
def zpotrs (nb : Nat) (dv : 𝕜 → 𝕜 → 𝕜) (u : Uplo) (n nrhs : Nat) : List (TTask (Buf × Nat × Nat) 𝕜) :=
  if max n nrhs = 0 then [] else
    driver nb (posDims n nrhs) [0, 1]
      (ompZpotrs dv u (tMat nb (posDims n nrhs) 0) (tMat nb (posDims n nrhs) 1)) [1]

/-- Tasks created by `plasma_zposv` (compute/zposv.c:90-186) for valid arguments. -/
noncomputable def zposv (nb : Nat) (pk : Uplo → Nat → Tl 𝕜 → Tl 𝕜) (info : Uplo → Nat → Tl 𝕜 → Nat)
    (dv : 𝕜 → 𝕜 → 𝕜) (u : Uplo) (n nrhs : Nat) : List (GTTask (Buf × Nat × Nat) 𝕜) :=
  if min n nrhs = 0 then [] else
    gdriverK nb (posDims n nrhs) (posSt u) [0, 1]
      (ompZposv pk info dv u (tMat nb (posDims n nrhs) 0) (tMat nb (posDims n nrhs) 1)) [0, 1]

section
variable {M : Type} {dv : 𝕜 → 𝕜 → 𝕜} {u : Uplo} {A B : TMat M} {b n nrhs : Nat}

omit [DecidableEq 𝕜] in
theorem chol_prod {u : Uplo} {n : Nat} {A X : Nat → Nat → 𝕜} (h : Chol n (lowE u A) (lowE u X)) {i j : Nat}
    (hi : i < n) (hj : j < n) :
    ∑ q ∈ range n, opE (poT1 u) (trE u .nonUnit X) i q * opE (poT2 u) (trE u .nonUnit X) q j = herE u A i j := by
  have h1 := Chol_full h hi hj
  have h2 : (if j ≤ i then hd (lowE u A) i j else star (hd (lowE u A) j i)) = herE u A i j := by
    have := congrFun (congrFun (hermM_lowE u A n) ⟨i, hi⟩) ⟨j, hj⟩
    simpa [hermM, herM] using this
  rw [h2] at h1
  rw [← h1]
  cases u
  · refine sum_congr rfl fun l _ => ?_
    simp only [lowE, reduceCtorEq, if_false, trE_if, inTri, poT1, poT2, if_true, opE]
    by_cases h5 : l ≤ i <;> by_cases h6 : l ≤ j <;> simp [h5, h6]
  · refine sum_congr rfl fun l _ => ?_
    simp only [lowE, if_true, trE_if, inTri, poT1, poT2, reduceCtorEq, if_false, opE]

theorem poSolve_writes (hB : B.Al b) : Writes (fun x => x.1 = B.id) (poSolve dv u A B) :=
  (pztrsm_writes hB rfl rfl).append (pztrsm_writes hB rfl rfl)

/-- The two solves together. -/
theorem poSolve_el (hdv : IsDiv dv) (hA : A.Al b) (hB : B.Al b) (hab : A.id ≠ B.id) (hm : B.d.m = n)
    (hn : B.d.n = nrhs) (s : Store (M × Nat × Nat) 𝕜)
    (hd : ∀ i, i < n → A.el s i i ≠ 0) {i j : Nat} (hi : i < n) (hj : j < nrhs) :
    ∑ l ∈ range n, (∑ q ∈ range n, opE (poT1 u) (trE u .nonUnit (A.el s)) i q *
        opE (poT2 u) (trE u .nonUnit (A.el s)) q l) * B.el (texec (poSolve dv u A B) s) l j =
      B.el s i j := by
  have hdd : ∀ s' : Store (M × Nat × Nat) 𝕜, A.el s' = A.el s → ∀ i, i < trN .left n nrhs →
      trE u .nonUnit (A.el s') i i ≠ 0 := by
    intro s' he i hi
    rw [he]; simpa [trE] using hd i hi
  have k1 := pztrsm_el (sd := .left) (u := u) (t := poT1 u) (d := .nonUnit) hdv hA hB hab hm hn
    (one_ne_zero (α := 𝕜)) s (hdd s rfl)
  set s1 := texec (pztrsm dv .left u (poT1 u) .nonUnit 1 A B) s with hs1
  have he : A.el s1 = A.el s := by
    funext r c
    simp only [TMat.el]
    rw [hs1, (pztrsm_writes hB hm hn).frame s]
    simpa [TMat.at'] using hab
  have k2 := pztrsm_el (sd := .left) (u := u) (t := poT2 u) (d := .nonUnit) hdv hA hB hab hm hn
    (one_ne_zero (α := 𝕜)) s1 (hdd s1 he)
  rw [he] at k2
  simp only [trN, trP, trT, trEl, if_true, one_mul] at k1 k2
  have e : texec (poSolve dv u A B) s = texec (pztrsm dv .left u (poT2 u) .nonUnit 1 A B) s1 := by
    rw [hs1, poSolve, texec_append]
  rw [e]
  calc _ = ∑ l ∈ range n, ∑ q ∈ range n, opE (poT1 u) (trE u .nonUnit (A.el s)) i q *
          (opE (poT2 u) (trE u .nonUnit (A.el s)) q l *
            B.el (texec (pztrsm dv .left u (poT2 u) .nonUnit 1 A B) s1) l j) := by
        refine sum_congr rfl fun l _ => ?_
        rw [sum_mul]
        refine sum_congr rfl fun q _ => ?_
        rw [mul_assoc]
    _ = ∑ q ∈ range n, opE (poT1 u) (trE u .nonUnit (A.el s)) i q * B.el s1 q j := by
        rw [sum_comm]
        refine sum_congr rfl fun q hq => ?_
        rw [← mul_sum, k2 q j (by simpa using hq) hj]
    _ = _ := k1 i j hi hj

theorem poSolve_good {env : M → MatEnv} (hA : FitsOn env b (inTri u) A) (hB : Fits env b B)
    (hAm : B.d.m ≤ A.d.m) (hAn : B.d.m ≤ A.d.n) : Good (evalid env) (poSolve dv u A B) :=
  (pztrsm_good hA hB rfl rfl (by simpa [trN] using hAm) (by simpa [trN] using hAn)).append
    (pztrsm_good hA hB rfl rfl (by simpa [trN] using hAm) (by simpa [trN] using hAn))

end

theorem pos_ld {n nrhs lda ldb : Nat} (h : n ≤ lda) (h' : n ≤ ldb) :
    ∀ k, (posDims n nrhs k).1 ≤ ld2 lda ldb k := by
  intro k; rcases k with _ | _ | k <;> simp [posDims, ld2, h, h']

theorem pos_sq {n nrhs : Nat} {u : Uplo} : ∀ k, stSq (posSt u k) (posDims n nrhs k).1 (posDims n nrhs k).2 := by
  intro k; rcases k with _ | _ | k
  · exact Or.inr rfl
  · exact Or.inl rfl
  · exact Or.inl rfl

/-- **C17, potrs.** If the triangle `u` of `pA` holds a factor with non-zero diagonal, every
execution of `plasma_zpotrs` solves with the product of the factor and its conjugate
transpose; `pA` and padding are unchanged. -/
theorem C17_potrs {nb : Nat} (hnb : 0 < nb) {dv : 𝕜 → 𝕜 → 𝕜} (hdv : IsDiv dv) (u : Uplo) (n nrhs lda ldb : Nat)
    (hl : n ≤ lda) (hl' : n ≤ ldb) (mem mem' : Buf × Nat → 𝕜)
    (hd : ∀ i, i < n → arr mem 0 lda i i ≠ 0)
    (hx : Exec (drvEnv nb (posDims n nrhs) (ld2 lda ldb)) (zpotrs nb dv u n nrhs) mem mem') :
    (∀ i j, i < n → j < nrhs →
      ∑ l ∈ range n, (if u = .lower then
          ∑ q ∈ range n, trE .lower .nonUnit (arr mem 0 lda) i q * star (trE .lower .nonUnit (arr mem 0 lda) l q)
        else
          ∑ q ∈ range n, star (trE .upper .nonUnit (arr mem 0 lda) q i) * trE .upper .nonUnit (arr mem 0 lda) q l) *
          mem' (.usr 1, l + j * ldb) =
        mem (.usr 1, i + j * ldb)) ∧
    (∀ k x, (k = 1 → ∀ i j, i < n → j < nrhs → x ≠ i + j * ldb) → mem' (.usr k, x) = mem (.usr k, x)) := by
  unfold zpotrs at hx
  split at hx
  · rename_i hq
    rw [hx.nil]
    exact ⟨fun i j hi hj => by omega, fun _ _ _ => rfl⟩
  · rename_i hq
    set A := tMat nb (posDims n nrhs) 0 with hAdef
    set B := tMat nb (posDims n nrhs) 1 with hBdef
    have hA : A.Al nb := al_t hnb 0
    have hB : B.Al nb := al_t hnb 1
    have hg : Good (evalid (drvEnv nb (posDims n nrhs) (ld2 lda ldb))) (ompZpotrs dv u A B) := by
      unfold ompZpotrs
      split
      · exact Good.nil
      · exact poSolve_good ((fits_t hnb 0).mono fun _ _ _ => trivial) (fits_t hnb 1) (le_refl n) (le_refl n)
    have hw : OnTiles (ompZpotrs dv u A B) := by
      unfold ompZpotrs OnTiles
      split
      · exact Writes.nil
      · exact (poSolve_writes hB).mono fun x hx => ⟨1, hx⟩
    obtain ⟨s, hin, hout, h3, h4⟩ := driver_correct hnb (pos_ld hl hl') (by simp) (by simp) hg hw hx
    refine ⟨fun i j hi hj => ?_, ?_⟩
    · have hAe : ∀ i j, i < n → j < n → A.el s i j = arr mem 0 lda i j := hin 0 (by simp)
      have hBe : ∀ i j, i < n → j < nrhs → B.el s i j = mem (.usr 1, i + j * ldb) := hin 1 (by simp)
      have hOe : ∀ i j, i < n → j < nrhs → mem' (.usr 1, i + j * ldb) = B.el (texec (ompZpotrs dv u A B) s) i j :=
        hout 1 (by simp)
      have homp : ompZpotrs dv u A B = poSolve dv u A B := by
        unfold ompZpotrs; rw [if_neg]
        show ¬ (n = 0 ∨ nrhs = 0); omega
      rw [homp] at hOe
      have key := poSolve_el (u := u) (n := n) (nrhs := nrhs) hdv hA hB (by simp [hAdef, hBdef, tMat, TMat.full])
        rfl rfl s (fun i hi => by rw [hAe i i hi hi]; exact hd i hi) hi hj
      rw [← hBe i j hi hj, ← key]
      refine sum_congr rfl fun l hl => ?_
      rw [mem_range] at hl
      rw [hOe l j hl hj]
      congr 1
      have htr : ∀ a c, a < n → c < n → trE u .nonUnit (A.el s) a c = trE u .nonUnit (arr mem 0 lda) a c := by
        intro a c ha hc
        rw [trE_if, trE_if, hAe a c ha hc]
      cases u
      · rw [if_neg (by simp)]
        refine sum_congr rfl fun q hq => ?_
        rw [mem_range] at hq
        simp only [poT1, poT2, if_true, opE]
        rw [htr q i hq hi, htr q l hq hl]
      · rw [if_pos rfl]
        refine sum_congr rfl fun q hq => ?_
        rw [mem_range] at hq
        simp only [poT1, poT2, reduceCtorEq, if_false, opE]
        rw [htr i q hi hq, htr l q hl hq]
    · intro k x hk
      by_cases hk1 : k = 1
      · subst hk1; exact h4 1 x (hk rfl)
      · exact h3 k (by simpa using hk1) x

/-- **C17, potrf followed by potrs.** The solution satisfies `A X = B` for the Hermitian
matrix described by the selected triangle before the factorization. -/
theorem C17_potrf_potrs {nb : Nat} (hnb : 0 < nb) {pk : Uplo → Nat → Tl 𝕜 → Tl 𝕜} {info : Uplo → Nat → Tl 𝕜 → Nat}
    (hpk : IsPotrf pk info) {dv : 𝕜 → 𝕜 → 𝕜} (hdv : IsDiv dv) (u : Uplo) (n nrhs lda ldb : Nat) (hl : n ≤ lda)
    (hl' : n ≤ ldb) (mem mem1 mem' : Buf × Nat → 𝕜)
    (hx : GExec (drvEnvK nb (potDims n) (ld1 lda) (fun _ => some u)) (zpotrf nb pk info dv u n) mem mem1 0)
    (hx' : Exec (drvEnv nb (posDims n nrhs) (ld2 lda ldb)) (zpotrs nb dv u n nrhs) mem1 mem') :
    ∀ i j, i < n → j < nrhs →
      ∑ l ∈ range n, herE u (arr mem 0 lda) i l * mem' (.usr 1, l + j * ldb) = mem (.usr 1, i + j * ldb) := by
  intro i j hi hj
  obtain ⟨h1, h2, -, h3⟩ := C15_potrf hnb hpk hdv u n lda hl mem mem1 hx
  have hd : ∀ i, i < n → arr mem1 0 lda i i ≠ 0 := fun i hi h0 => by
    have := (h1 i hi).2; rw [h0] at this; simp at this
  have := (C17_potrs hnb hdv u n nrhs lda ldb hl hl' mem1 mem' hd hx').1 i j hi hj
  rw [h3 1 _ (by simp)] at this
  rw [← this]
  refine sum_congr rfl fun l hl => ?_
  rw [mem_range] at hl
  rw [← h2 i l hi hl]

open scoped ComplexOrder in
/-- **C17, posv.** If `plasma_zposv` returns 0, then `A X = B` for the Hermitian matrix
described by the selected triangle on entry; the returned value is 0 exactly for positive
definite matrices (when there is something to solve) and otherwise the order of the first
leading submatrix that is not positive definite. -/
theorem C17_posv {nb : Nat} (hnb : 0 < nb) {pk : Uplo → Nat → Tl 𝕜 → Tl 𝕜} {info : Uplo → Nat → Tl 𝕜 → Nat}
    (hpk : IsPotrf pk info) {dv : 𝕜 → 𝕜 → 𝕜} (hdv : IsDiv dv) (u : Uplo) (n nrhs lda ldb : Nat) (hl : n ≤ lda)
    (hl' : n ≤ ldb) (hr : 0 < nrhs) (mem mem' : Buf × Nat → 𝕜) (st : Int)
    (hx : GExec (drvEnvK nb (posDims n nrhs) (ld2 lda ldb) (posSt u)) (zposv nb pk info dv u n nrhs) mem mem' st) :
    (st = 0 → ∀ i j, i < n → j < nrhs →
      ∑ l ∈ range n, herE u (arr mem 0 lda) i l * mem' (.usr 1, l + j * ldb) = mem (.usr 1, i + j * ldb)) ∧
    (st = 0 ↔ (herM u (arr mem 0 lda) n).PosDef) ∧
    (st ≠ 0 → ∃ p : Nat, st = p ∧ 1 ≤ p ∧ p ≤ n ∧ ¬ (herM u (arr mem 0 lda) p).PosDef ∧
      ∀ k, k < p → (herM u (arr mem 0 lda) k).PosDef) ∧
    (∀ k x, (k = 0 → ∀ i j, i < n → j < n → x ≠ i + j * lda) → (k = 1 → ∀ i j, i < n → j < nrhs → x ≠ i + j * ldb) →
      mem' (.usr k, x) = mem (.usr k, x)) := by
  have hpd : ∀ k, (herM u (arr mem 0 lda) k).PosDef ↔ ∃ L, Chol k (lowE u (arr mem 0 lda)) L := by
    intro k; rw [← hermM_lowE]; exact posDef_iff_chol
  unfold zposv at hx
  split at hx
  · rename_i hq
    have hn0 : n = 0 := by omega
    subst hn0
    have hst : st = 0 := by
      by_contra h0
      obtain ⟨i, hi, -⟩ := hx.failure (drvEnvK_wf hnb (pos_ld hl hl') pos_sq) (by simp [tasks, Good.nil])
        CodeOK.nil h0
      simp at hi
    refine ⟨fun _ i j hi => absurd hi (Nat.not_lt_zero _), ⟨fun _ => (hpd 0).mpr ⟨fun _ _ => 0,
      fun i hi => absurd hi (Nat.not_lt_zero _), fun r c _ hr => absurd hr (Nat.not_lt_zero _)⟩, fun _ => hst⟩,
      fun h => absurd hst h, fun k x _ _ => hx.frame _ (by simp [tasks])⟩
  · rename_i hq
    set A := tMat nb (posDims n nrhs) 0 with hAdef
    set B := tMat nb (posDims n nrhs) 1 with hBdef
    have hA : A.Al nb := al_t hnb 0
    have hB : B.Al nb := al_t hnb 1
    have hab : A.id ≠ B.id := by simp [hAdef, hBdef, tMat, TMat.full]
    have homp : ompZposv pk info dv u A B = pzpotrf pk info dv u A ++ okT (poSolve dv u A B) := by
      unfold ompZposv; rw [if_neg]
      show ¬ (n = 0 ∨ nrhs = 0); omega
    rw [homp] at hx
    have hco : CodeOK (pzpotrf pk info dv u A ++ okT (poSolve dv u A B)) :=
      (pzpotrf_codeOK (N := n) hpk hA rfl rfl).append (CodeOK.ok _)
    have hg : Good (evalid (drvEnvK nb (posDims n nrhs) (ld2 lda ldb) (posSt u)))
        (tasks (pzpotrf pk info dv u A ++ okT (poSolve dv u A B))) := by
      rw [tasks_append, tasks_okT]
      exact (pzpotrf_good (N := n) hpk (fitsK_t hnb 0) rfl rfl).append
        (poSolve_good (fitsK_t hnb 0) (fitsK_gen hnb rfl) (le_refl n) (le_refl n))
    have hw : OnTiles (tasks (pzpotrf pk info dv u A ++ okT (poSolve dv u A B))) := by
      rw [tasks_append, tasks_okT]
      exact ((pzpotrf_writes (N := n) hA rfl rfl).mono fun _ ht => ⟨0, ht⟩).append
        ((poSolve_writes hB).mono fun _ hx => ⟨1, hx⟩)
    have hch : FChain (pzpotrf pk info dv u A ++ okT (poSolve dv u A B)) :=
      (pzpotrf_chain (N := n) hA rfl rfl).append (safe_ok _)
    obtain ⟨hf1, hf2⟩ := gdriverK_frame hnb pos_sq hg hw hx
    have hcg : ∀ (s : Store (Buf × Nat × Nat) 𝕜) q, q ≤ n →
        (∀ k ∈ [0, 1], ∀ r c, r < (posDims n nrhs k).1 → c < (posDims n nrhs k).2 → stOK (posSt u k) (r / nb) (c / nb) →
        (tMat nb (posDims n nrhs) k).el s r c = mem (.usr k, r + c * ld2 lda ldb k)) → ∀ L,
        (Chol q (lowE u (A.el s)) L ↔ Chol q (lowE u (arr mem 0 lda)) L) := by
      intro s q hqn hin L
      have hI : ∀ i j, i < n → j < n → inTri u i j → A.el s i j = arr mem 0 lda i j :=
        fun i j hi hj h => hin 0 (by simp) i j hi hj (stOK_some_div h)
      constructor <;> intro h
      · exact h.congr (fun r c hc hr => lowE_congr hc fun i j h hi hj => hI i j (by omega) (by omega) h)
          (fun _ _ _ _ => rfl)
      · exact h.congr (fun r c hc hr => lowE_congr hc fun i j h hi hj => (hI i j (by omega) (by omega) h).symm)
          (fun _ _ _ _ => rfl)
    have m1 : st = 0 → (∃ L, Chol n (lowE u (arr mem 0 lda)) L) ∧ ∀ i j, i < n → j < nrhs →
        ∑ l ∈ range n, herE u (arr mem 0 lda) i l * mem' (.usr 1, l + j * ldb) = mem (.usr 1, i + j * ldb) := by
      rintro rfl
      obtain ⟨s, hin, hz, hout⟩ := gdriverK_success hnb (pos_ld hl hl') pos_sq (by simp) (by simp) hg hw hco hx
      have hz1 : ∀ i, tcode (pzpotrf pk info dv u A) s i = 0 := by
        intro i
        by_cases hi : i < (pzpotrf pk info dv u A).length
        · rw [← tcode_append_left _ (okT (poSolve dv u A B)) s hi]; exact hz i
        · exact tcode_len _ _ (by omega)
      have hchol := pzpotrf_ok (N := n) (u := u) hpk hdv hA rfl rfl s hz1
      refine ⟨⟨_, (hcg s n (le_refl _) hin _).mp hchol⟩, ?_⟩
      intro i j hi hj
      have hBe : ∀ i j, i < n → j < nrhs → B.el s i j = mem (.usr 1, i + j * ldb) :=
        fun i j hi hj => hin 1 (by simp) i j hi hj trivial
      set s1 := texec (tasks (pzpotrf pk info dv u A)) s with hs1
      have hOe : ∀ i j, i < n → j < nrhs → mem' (.usr 1, i + j * ldb) = B.el (texec (poSolve dv u A B) s1) i j := by
        intro i j hi hj
        have := hout 1 (by simp) i j hi hj
        rw [if_pos (show stOK (posSt u 1) (i / nb) (j / nb) from trivial)] at this
        rw [tasks_append, tasks_okT, texec_append] at this
        exact this
      have hB1 : B.el s1 = B.el s := by
        funext r c
        simp only [TMat.el]
        rw [hs1, (pzpotrf_writes (N := n) hA rfl rfl).frame s]
        simpa [TMat.at'] using hab.symm
      have hdg : ∀ i, i < n → A.el s1 i i ≠ 0 := by
        intro i hi h0
        have := (hchol.pos i hi).2
        unfold lowE at this
        rw [h0] at this
        cases u <;> simp at this
      have key := poSolve_el (u := u) (n := n) (nrhs := nrhs) hdv hA hB hab rfl rfl s1 hdg hi hj
      rw [hB1, hBe i j hi hj] at key
      rw [← key]
      refine sum_congr rfl fun l hl => ?_
      rw [mem_range] at hl
      rw [hOe l j hl hj]
      congr 1
      rw [chol_prod hchol hi hl]
      have hI : ∀ i j, i < n → j < n → inTri u i j → A.el s i j = arr mem 0 lda i j :=
        fun i j hi hj h => hin 0 (by simp) i j hi hj (stOK_some_div h)
      unfold herE
      by_cases hil : i = l
      · rw [if_pos hil, if_pos hil, hI i i hi hi (by cases u <;> simp [inTri])]
      · rw [if_neg hil, if_neg hil]
        cases u
        · dsimp only
          split
          · rw [hI i l hi hl (by assumption)]
          · rw [hI l i hl hi (by simp only [inTri]; omega)]
        · dsimp only
          split
          · rw [hI i l hi hl (by assumption)]
          · rw [hI l i hl hi (by simp only [inTri]; omega)]
    have m2 : st ≠ 0 → ∃ q : Nat, st = (q : Int) + 1 ∧ q < n ∧ (∃ L, Chol q (lowE u (arr mem 0 lda)) L) ∧
        ¬ ∃ L, Chol (q + 1) (lowE u (arr mem 0 lda)) L := by
      intro h0
      obtain ⟨s, hin, i, hi, hc, hfst⟩ := gdriverK_failure hnb (pos_ld hl hl') pos_sq (by simp) hg hco hx h0
      have hfst := hfst hch
      have hilt : i < (pzpotrf pk info dv u A).length := by
        by_contra hge
        have e : i = (pzpotrf pk info dv u A).length + (i - (pzpotrf pk info dv u A).length) := by omega
        rw [e, tcode_append_right, tcode_ok] at hc
        exact h0 hc.symm
      rw [tcode_append_left _ _ _ hilt] at hc
      obtain ⟨q, hq1, hqn, hq2, hq3⟩ := pzpotrf_bad (N := n) (u := u) hpk hdv hA rfl rfl s (i := i)
        (by rw [hc]; exact h0) (fun j hj => by
          rw [← tcode_append_left _ (okT (poSolve dv u A B)) s (by omega)]; exact hfst j hj)
      refine ⟨q, by rw [← hc]; exact hq1, hqn, ?_, ?_⟩
      · obtain ⟨L, hL⟩ := hq2; exact ⟨L, (hcg s q (le_of_lt hqn) hin L).mp hL⟩
      · rintro ⟨L, hL⟩; exact hq3 ⟨L, (hcg s (q + 1) hqn hin L).mpr hL⟩
    refine ⟨fun h => (m1 h).2, ⟨fun h => (hpd n).mpr (m1 h).1, fun h => ?_⟩, ?_, ?_⟩
    · by_contra h0
      obtain ⟨q, -, hqn, -, hno⟩ := m2 h0
      obtain ⟨L, hL⟩ := (hpd n).mp h
      exact hno ⟨L, hL.mono hqn⟩
    · intro h0
      obtain ⟨q, hq, hqn, ⟨L, hL⟩, hno⟩ := m2 h0
      refine ⟨q + 1, by rw [hq]; push_cast; rfl, by omega, hqn, fun h => hno ((hpd _).mp h), ?_⟩
      intro k hk
      exact (hpd k).mpr ⟨L, hL.mono (by omega)⟩
    · intro k x hk0 hk1
      refine hf2 k x ?_
      rcases k with _ | _ | k
      · exact hk0 rfl
      · exact hk1 rfl
      · intro i j hi; exact absurd hi (Nat.not_lt_zero _)

/-! ### Cases meeting the hypotheses -/

theorem zposv_exists {nb : Nat} (hnb : 0 < nb) {pk : Uplo → Nat → Tl 𝕜 → Tl 𝕜} {info : Uplo → Nat → Tl 𝕜 → Nat}
    (hpk : IsPotrf pk info) (dv : 𝕜 → 𝕜 → 𝕜) (u : Uplo) {n nrhs lda ldb : Nat} (hn : 0 < n) (hr : 0 < nrhs)
    (hl : n ≤ lda) (hl' : n ≤ ldb) (mem : Buf × Nat → 𝕜) :
    ∃ mem' st, GExec (drvEnvK nb (posDims n nrhs) (ld2 lda ldb) (posSt u)) (zposv nb pk info dv u n nrhs)
      mem mem' st := by
  unfold zposv
  rw [if_neg (by omega)]
  refine gdriverK_exists hnb (pos_ld hl hl') pos_sq ?_ mem
  unfold ompZposv
  rw [if_neg, tasks_append, tasks_okT]
  · exact (pzpotrf_good (N := n) hpk (fitsK_t hnb 0) rfl rfl).append
      (poSolve_good (fitsK_t hnb 0) (fitsK_gen hnb rfl) (le_refl n) (le_refl n))
  · show ¬ (n = 0 ∨ nrhs = 0); omega

omit [DecidableEq 𝕜] in
theorem potEx_posDef : open scoped ComplexOrder in (herM .lower (arr potEx 0 3) 2).PosDef := by
  rw [← hermM_lowE]
  refine Chol.posDef (L := fun i j => if i = 0 then 2 else if j = 0 then 1 else 2) ⟨?_, ?_⟩
  · intro i hi; refine ⟨by simp, ?_⟩
    interval_cases i <;> simp
  · intro r c hc hr
    interval_cases r <;> interval_cases c <;>
      simp [Finset.sum_range_succ, hd, lowE, arr, potEx, reP] <;> norm_num

/-- Order 2, three right-hand sides, tiles of size 1: an execution of `plasma_zposv` with
return value 0 exists. -/
example : ∃ pk info mem', IsPotrf pk info ∧
    GExec (drvEnvK 1 (posDims 2 3) (ld2 3 2) (posSt .lower)) (zposv 1 pk info rdv .lower 2 3) potEx mem' 0 := by
  classical
  obtain ⟨pk, info, hpk⟩ := exists_isPotrf (𝕜 := ℝ)
  obtain ⟨mem', st, hx⟩ := zposv_exists (nb := 1) (by decide) hpk rdv .lower (n := 2) (nrhs := 3) (lda := 3)
    (ldb := 2) (by decide) (by decide) (by decide) (by decide) potEx
  have := (C17_posv (by decide) hpk rdv_isDiv .lower 2 3 3 2 (by decide) (by decide) (by decide) potEx mem' st
    hx).2.1.mpr potEx_posDef
  exact ⟨pk, info, mem', hpk, this ▸ hx⟩

/-- `C17_potrs`: the array `[4 2; 2 5]` taken as a factor; an execution exists. -/
example : (∀ i, i < 2 → arr potEx 0 3 i i ≠ 0) ∧
    ∃ mem', Exec (drvEnv 1 (posDims 2 3) (ld2 3 2)) (zpotrs 1 rdv .lower 2 3) potEx mem' := by
  refine ⟨fun i hi => by interval_cases i <;> simp [arr, potEx], ?_⟩
  unfold zpotrs
  rw [if_neg (by decide)]
  refine driver_exists (by decide) (pos_ld (by decide) (by decide)) ?_ _
  unfold ompZpotrs
  split
  · exact Good.nil
  exact poSolve_good ((fits_t (by decide) 0).mono fun _ _ _ => trivial) (fits_t (by decide) 1) (le_refl 2) (le_refl 2)

end Verif.Props

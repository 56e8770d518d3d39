/-
C67: multiplication by a band matrix, end to end.
-/
import Verif.Gbmm
import Verif.Driver
import Verif.ArgCheck
import Verif.Props.Gemm
import Verif.Props.Desc

namespace Verif.Props

open Verif.Layout Verif.Tile Finset

universe v

/-- Memory of `plasma_zgbmm` (compute/zgbmm.c:199-239): as for `plasma_zgemm`, except that the
tile matrix of `pA` is a band matrix with `tku+tkl+1` allocated tile rows. -/
def gbmmEnv (nb : Nat) (dims : Nat → Nat × Nat) (ld : Nat → Nat) (kl ku : Nat) : Buf → MatEnv
  | .til 0 => ⟨.band (1 + (ku + kl + nb - 1) / nb) ((ku + kl + nb - 1) / nb + (kl + nb - 1) / nb + 1),
      nb, nb, (dims 0).1, (dims 0).2⟩
  | a => drvEnv nb dims ld a

/-- The band descriptor of `pA` (compute/zgbmm.c:205-217). -/
def gbmmA (nb : Nat) (dims : Nat → Nat × Nat) (kl ku : Nat) : TMat Buf :=
  bandR (.til 0) nb (((ku + kl + nb - 1) / nb + (kl + nb - 1) / nb + 1) * nb) (dims 0).1 (dims 0).2 kl ku

section
variable {α : Type v} [CommRing α] [StarRing α] [DecidableEq α]

/-- Tasks created by `plasma_zgbmm` with legal arguments (compute/zgbmm.c:191-273): quick return,
translation of `pA`, `pB`, `pC`, `plasma_omp_zgbmm`, translation back of `pC`.  `plasma_omp_zgb2desc`
calls `plasma_pzge2desc` for the general matrices `B` and `C` (compute/zgb2desc.c:62-72). -/
def zgbmm (nb : Nat) (ta tb : Trans) (m n k kl ku : Nat) (alpha beta : α) :
    List (TTask (Buf × Nat × Nat) α) :=
  let dims := gemmDims ta tb m n k
  if m = 0 ∨ n = 0 ∨ ((alpha = 0 ∨ k = 0) ∧ beta = 1) then []
  else
    pzgb2desc (uMat nb dims 0) (gbmmA nb dims kl ku) ++
    pzge2desc (uMat nb dims 1) (tMat nb dims 1) ++
    pzge2desc (uMat nb dims 2) (tMat nb dims 2) ++
    ompZgbmm ta tb alpha (gbmmA nb dims kl ku) (tMat nb dims 1) beta (tMat nb dims 2) ++
    pzdesc2ge (tMat nb dims 2) (uMat nb dims 2)

variable {nb : Nat} {dims : Nat → Nat × Nat} {ld : Nat → Nat} {kl ku : Nat}

omit [CommRing α] [StarRing α] [DecidableEq α] in
theorem gbmm_wf (hnb : 0 < nb) (hld : ∀ k, (dims k).1 ≤ ld k) : ∀ a, (gbmmEnv nb dims ld kl ku a).WF := by
  intro a
  unfold gbmmEnv
  split
  · exact ⟨hnb, hnb, by simp, by simp, by simp⟩
  · exact drvEnv_wf hnb hld _

omit [CommRing α] [StarRing α] [DecidableEq α] in
theorem gbmm_fitsU (hnb : 0 < nb) (k : Nat) : Fits (gbmmEnv nb dims ld kl ku) nb (uMat nb dims k) :=
  fits_full hnb rfl (Or.inr ⟨_, rfl⟩)

omit [CommRing α] [StarRing α] [DecidableEq α] in
theorem gbmm_fitsT (hnb : 0 < nb) {k : Nat} (hk : 0 < k) : Fits (gbmmEnv nb dims ld kl ku) nb (tMat nb dims k) := by
  obtain ⟨k, rfl⟩ : ∃ j, k = j + 1 := ⟨k - 1, by omega⟩
  exact fits_full hnb rfl (Or.inl rfl)

omit [CommRing α] [StarRing α] [DecidableEq α] in
theorem gbmm_fitsA (hnb : 0 < nb) :
    FitsOn (gbmmEnv nb dims ld kl ku) nb (bandTile nb kl ku) (gbmmA nb dims kl ku) where
  al := bandR_al _ hnb _ _ _ _ _
  mb := rfl
  nb := rfl
  rows := by simp [gbmmA, bandR, general, gbmmEnv]
  cols := by simp [gbmmA, bandR, general, gbmmEnv]
  st := by
    intro m n i j ht
    show n + 0 / nb ≤ (1 + (ku + kl + nb - 1) / nb - 1) + (m + 0 / nb) ∧
      (1 + (ku + kl + nb - 1) / nb - 1) + (m + 0 / nb) - (n + 0 / nb) <
        (ku + kl + nb - 1) / nb + (kl + nb - 1) / nb + 1
    rw [Nat.zero_div, Nat.add_zero, Nat.add_zero]
    have k1 : ∀ k d, d < 1 + (k + nb - 1) / nb ↔ d * nb < nb + k := by
      intro k d
      rw [Nat.add_comm 1, Nat.lt_add_one_iff, Nat.le_div_iff_mul_le hnb]
      omega
    have h1 := k1 (ku + kl) (n - m)
    have h2 := k1 kl (m - n)
    rw [Nat.sub_mul] at h1 h2
    obtain ⟨t1, t2⟩ := ht
    generalize (ku + kl + nb - 1) / nb = x at *
    generalize (kl + nb - 1) / nb = y at *
    generalize m * nb = X at *
    generalize n * nb = Y at *
    omega

omit [CommRing α] [StarRing α] [DecidableEq α] in
theorem gbmm_shape {ta tb : Trans} {m n k : Nat} :
    GemmShape ta tb k (gbmmA nb (gemmDims ta tb m n k) kl ku) (tMat nb (gemmDims ta tb m n k) 1)
      (tMat nb (gemmDims ta tb m n k) 2) := by
  constructor <;> simp only [gbmmA, bandR, tMat, TMat.full, general, gemmDims] <;> split <;> rfl

theorem ompZgbmm_good (hnb : 0 < nb) {ta tb : Trans} {m n k : Nat} {alpha beta : α} :
    Good (evalid (gbmmEnv nb (gemmDims ta tb m n k) ld kl ku))
      (ompZgbmm ta tb alpha (gbmmA nb (gemmDims ta tb m n k) kl ku) (tMat nb (gemmDims ta tb m n k) 1) beta
      (tMat nb (gemmDims ta tb m n k) 2)) :=
  Good.ite (fun _ => Good.nil)
    (fun _ => pzgemmBand_good (gbmm_fitsA hnb) (gbmm_fitsT hnb (by omega)) (gbmm_fitsT hnb (by omega)) gbmm_shape)

theorem ompZgbmm_writes (hnb : 0 < nb) {ta tb : Trans} {m n k : Nat} {alpha beta : α} :
    Writes (fun t => t.1 = .til 2) (ompZgbmm ta tb alpha (gbmmA nb (gemmDims ta tb m n k) kl ku)
      (tMat nb (gemmDims ta tb m n k) 1) beta (tMat nb (gemmDims ta tb m n k) 2)) :=
  Writes.ite (fun _ => Writes.nil) (fun _ => pzgemmBand_writes (gbmm_fitsA (ld := fun _ => 0) hnb).al gbmm_shape)

theorem zgbmm_good (hnb : 0 < nb) {ta tb : Trans} {m n k : Nat} {alpha beta : α} :
    Good (evalid (gbmmEnv nb (gemmDims ta tb m n k) ld kl ku)) (zgbmm nb ta tb m n k kl ku alpha beta) := by
  refine Good.ite (fun _ => Good.nil) fun _ => ?_
  refine Good.append (Good.append (Good.append (Good.append ?_ ?_) ?_) (ompZgbmm_good hnb)) ?_
  · exact pzgb2desc_good hnb (gbmm_fitsU hnb 0) (gbmm_fitsA hnb) le_rfl le_rfl
  · exact copyTasks_good (al_t hnb 1) (gbmm_fitsU hnb 1) (gbmm_fitsT hnb (by omega)) le_rfl le_rfl le_rfl le_rfl
  · exact copyTasks_good (al_t hnb 2) (gbmm_fitsU hnb 2) (gbmm_fitsT hnb (by omega)) le_rfl le_rfl le_rfl le_rfl
  · exact copyTasks_good (al_t hnb 2) (gbmm_fitsT hnb (by omega)) (gbmm_fitsU hnb 2) le_rfl le_rfl le_rfl le_rfl

theorem zgbmm_exists (hnb : 0 < nb) {ta tb : Trans} {m n k lda ldb ldc : Nat}
    (hl : GemmLd ta tb m n k lda ldb ldc) {alpha beta : α} (mem : Buf × Nat → α) :
    ∃ mem', Exec (gbmmEnv nb (gemmDims ta tb m n k) (ld3 lda ldb ldc) kl ku)
      (zgbmm nb ta tb m n k kl ku alpha beta) mem mem' :=
  Exec.exists (gbmm_wf hnb (gemm_ld hl)) (zgbmm_good (ld := ld3 lda ldb ldc) hnb).loc (zgbmm_good hnb).ins mem

omit [DecidableEq α] in
theorem tileBand_congr {b kl ku p q : Nat} {ta : Trans} {A A' : Nat → Nat → α}
    (h : bandTile b kl ku (if ta = .noTrans then p / b else q / b) (if ta = .noTrans then q / b else p / b) →
      A (if ta = .noTrans then p else q) (if ta = .noTrans then q else p) =
      A' (if ta = .noTrans then p else q) (if ta = .noTrans then q else p)) :
    opE ta (tileBand b kl ku A) p q = opE ta (tileBand b kl ku A') p q := by
  cases ta <;> simp only [opE, tileBand] <;> simp at h <;> split <;> simp_all

/-- **C67** (any array).  What `plasma_zgbmm` computes for every content of `pA`: of `A` it uses
the tiles of size `nb` that hold a part of the band, whole. -/
theorem C67_gbmm_tiles (hnb : 0 < nb) (ta tb : Trans) (m n k kl ku lda ldb ldc : Nat)
    (hl : GemmLd ta tb m n k lda ldb ldc) (alpha beta : α) (mem mem' : Buf × Nat → α)
    (h : Exec (gbmmEnv nb (gemmDims ta tb m n k) (ld3 lda ldb ldc) kl ku)
      (zgbmm nb ta tb m n k kl ku alpha beta) mem mem') :
    ∀ i j, i < m → j < n →
      mem' (.usr 2, i + j * ldc) = beta * mem (.usr 2, i + j * ldc) +
        alpha * ∑ l ∈ range k,
          opE ta (fun p q => if p / nb * nb < q / nb * nb + nb + kl ∧ q / nb * nb < p / nb * nb + nb + ku
            then mem (.usr 0, p + q * lda) else 0) i l *
          opE tb (fun p q => mem (.usr 1, p + q * ldb)) l j := by
  intro i j hi hj
  have hg := zgbmm_good (ld := ld3 lda ldb ldc) (kl := kl) (ku := ku) hnb (ta := ta) (tb := tb) (m := m) (n := n) (k := k)
    (alpha := alpha) (beta := beta)
  have hwf := gbmm_wf (kl := kl) (ku := ku) hnb (gemm_ld hl)
  by_cases hq : m = 0 ∨ n = 0 ∨ ((alpha = 0 ∨ k = 0) ∧ beta = 1)
  · have e : zgbmm nb ta tb m n k kl ku alpha beta = [] := if_pos hq
    rw [e] at h
    have : mem' = mem := h.nil
    rw [this]
    rcases hq with hq | hq | ⟨hq | hq, hq'⟩
    · omega
    · omega
    · simp [hq, hq']
    · simp [hq, hq']
  · have h1 := Exec.el hwf hg h (gbmm_fitsU hnb 2) (r := i) (c := j) hi hj
    have h2 : (uMat nb (gemmDims ta tb m n k) 2).el (view (eloc (gbmmEnv nb (gemmDims ta tb m n k) (ld3 lda ldb ldc) kl ku)) mem') i j
        = mem' (.usr 2, i + j * ldc) :=
      el_view_lapack (env := gbmmEnv nb (gemmDims ta tb m n k) (ld3 lda ldb ldc) kl ku) (id := .usr 2) hnb rfl mem' i j
    rw [← h2, h1]
    have e : zgbmm nb ta tb m n k kl ku alpha beta = _ := if_neg hq
    rw [e]
    generalize hd : gemmDims ta tb m n k = dims at *
    have hd0 : dims 0 = if ta = .noTrans then (m, k) else (k, m) := by rw [← hd]; rfl
    have hd1 : dims 1 = if tb = .noTrans then (k, n) else (n, k) := by rw [← hd]; rfl
    have hd2 : dims 2 = (m, n) := by rw [← hd]; rfl
    have hs : GemmShape ta tb k (gbmmA nb dims kl ku) (tMat nb dims 1) (tMat nb dims 2) := by
      rw [← hd]; exact gbmm_shape
    have homp : ompZgbmm ta tb alpha (gbmmA nb dims kl ku) (tMat nb dims 1) beta (tMat nb dims 2) =
        pzgemmBand ta tb alpha (gbmmA nb dims kl ku) (tMat nb dims 1) beta (tMat nb dims 2) := by
      unfold ompZgbmm
      dsimp only
      rw [if_neg]
      rw [hs.an]
      have a1 : (tMat nb dims 2).d.m = m := by show (dims 2).1 = m; rw [hd2]
      have a2 : (tMat nb dims 2).d.n = n := by show (dims 2).2 = n; rw [hd2]
      rw [a1, a2]
      exact hq
    rw [texec_append, texec_append, texec_append, texec_append]
    set v0 := view (eloc (gbmmEnv nb dims (ld3 lda ldb ldc) kl ku)) mem with hv0
    set s1 := texec (pzgb2desc (uMat nb dims 0) (gbmmA nb dims kl ku)) v0 with hs1
    set s2 := texec (pzge2desc (uMat nb dims 1) (tMat nb dims 1)) s1 with hs2
    set s3 := texec (pzge2desc (uMat nb dims 2) (tMat nb dims 2)) s2 with hs3
    have hi' : i < (dims 2).1 := by rw [hd2]; exact hi
    have hj' : j < (dims 2).2 := by rw [hd2]; exact hj
    have hout := copyTasks_el (al_t (dims := dims) hnb 2) (al_t (dims := dims) hnb 2) (al_u (dims := dims) hnb 2)
      (by simp [uMat, tMat, TMat.full])
      (texec (ompZgbmm ta tb alpha (gbmmA nb dims kl ku) (tMat nb dims 1) beta (tMat nb dims 2)) s3)
      (r := i) (c := j) hi' hj'
    refine hout.trans ?_
    rw [homp, pzgemmBand_el (gbmm_fitsA (ld := fun _ => 0) hnb).al (al_t hnb 1) (al_t hnb 2) hs
      (by simp [gbmmA, bandR, tMat, TMat.full]) (by simp [tMat, TMat.full]) _ hi' hj']
    have w1 : Writes (fun t => t.1 = .til 0) (pzgb2desc (α := α) (uMat nb dims 0) (gbmmA nb dims kl ku)) :=
      pzgb2desc_writes
    have w2 : ∀ k', Writes (fun t => t.1 = .til k') (pzge2desc (α := α) (uMat nb dims k') (tMat nb dims k')) :=
      fun k' => copyTasks_writes (A := tMat nb dims k')
    have f1 : ∀ x : Buf × Nat × Nat, x.1 ≠ .til 0 → s1 x = v0 x := fun x hx => by
      rw [hs1]; exact w1.frame v0 hx
    have f2 : ∀ x : Buf × Nat × Nat, x.1 ≠ .til 1 → s2 x = s1 x := fun x hx => by
      rw [hs2]; exact (w2 1).frame s1 hx
    have f3 : ∀ x : Buf × Nat × Nat, x.1 ≠ .til 2 → s3 x = s2 x := fun x hx => by
      rw [hs3]; exact (w2 2).frame s2 hx
    have vu : ∀ k' r c, (uMat nb dims k').el v0 r c = mem (.usr k', r + c * ld3 lda ldb ldc k') := fun k' r c =>
      el_view_lapack (env := gbmmEnv nb dims (ld3 lda ldb ldc) kl ku) (id := .usr k') hnb rfl mem r c
    have eC : (tMat nb dims 2).el s3 i j = mem (.usr 2, i + j * ldc) := by
      rw [hs3]
      refine (copyTasks_el (al_t (dims := dims) hnb 2) (al_u (dims := dims) hnb 2) (al_t (dims := dims) hnb 2)
        (by simp [uMat, tMat, TMat.full]) s2 (r := i) (c := j) hi' hj').trans ?_
      have : (uMat nb dims 2).el s2 i j = (uMat nb dims 2).el v0 i j := by
        unfold TMat.el; rw [f2 _ (by simp [TMat.at', uMat, TMat.full]), f1 _ (by simp [TMat.at', uMat, TMat.full])]
      rw [this, vu]; rfl
    have eB : ∀ r c, r < (dims 1).1 → c < (dims 1).2 → (tMat nb dims 1).el s3 r c = mem (.usr 1, r + c * ldb) := by
      intro r c hr hc
      have e3 : (tMat nb dims 1).el s3 r c = (tMat nb dims 1).el s2 r c := by
        unfold TMat.el; rw [f3 _ (by simp [TMat.at', tMat, TMat.full])]
      rw [e3, hs2]
      refine (copyTasks_el (al_t (dims := dims) hnb 1) (al_u (dims := dims) hnb 1) (al_t (dims := dims) hnb 1)
        (by simp [uMat, tMat, TMat.full]) s1 (r := r) (c := c) hr hc).trans ?_
      have : (uMat nb dims 1).el s1 r c = (uMat nb dims 1).el v0 r c := by
        unfold TMat.el; rw [f1 _ (by simp [TMat.at', uMat, TMat.full])]
      rw [this, vu]; rfl
    have eA : ∀ r c, r < (dims 0).1 → c < (dims 0).2 → bandTile nb kl ku (r / nb) (c / nb) →
        (gbmmA nb dims kl ku).el s3 r c = mem (.usr 0, r + c * lda) := by
      intro r c hr hc ht
      have e3 : (gbmmA nb dims kl ku).el s3 r c = (gbmmA nb dims kl ku).el s1 r c := by
        unfold TMat.el
        rw [f3 _ (by simp [TMat.at', gbmmA, bandR]), f2 _ (by simp [TMat.at', gbmmA, bandR])]
      rw [e3, hs1]
      refine (pzgb2desc_el (al_u (dims := dims) hnb 0) (by simp [uMat, TMat.full]) v0 hr hc ht).trans ?_
      rw [vu]; rfl
    rw [eC]
    congr 2
    refine Finset.sum_congr rfl fun l hlk => ?_
    rw [mem_range] at hlk
    congr 1
    · refine (tileBand_congr (A' := fun p q => mem (.usr 0, p + q * lda)) ?_).trans ?_
      · intro ht
        by_cases hta : ta = .noTrans
        · simp only [hta, if_true] at ht hd0 ⊢
          exact eA i l (by rw [hd0]; exact hi) (by rw [hd0]; exact hlk) ht
        · simp only [hta, if_false] at ht hd0 ⊢
          exact eA l i (by rw [hd0]; exact hlk) (by rw [hd0]; exact hi) ht
      · rfl
    · by_cases htb : tb = .noTrans
      · simp only [htb, if_true] at hd1
        subst htb
        simp only [opE]
        exact eB l j (by rw [hd1]; exact hlk) (by rw [hd1]; exact hj)
      · simp only [htb, if_false] at hd1
        have := eB j l (by rw [hd1]; exact hj) (by rw [hd1]; exact hlk)
        cases tb <;> simp only [opE] <;> first | exact absurd rfl htb | rw [this]

omit [CommRing α] [StarRing α] [DecidableEq α] in
/-- A place of the band lies in a tile of the band. -/
theorem bandTile_of_band {b kl ku r c : Nat} (hb : 0 < b) (h1 : r ≤ c + kl) (h2 : c ≤ r + ku) :
    bandTile b kl ku (r / b) (c / b) := by
  have dr := Nat.div_add_mod r b
  have dc := Nat.div_add_mod c b
  have hr := Nat.mod_lt r hb
  have hc := Nat.mod_lt c hb
  rw [Nat.mul_comm] at dr dc
  constructor <;> omega

/-- **C67.** Whatever legal schedule the runtime picks and however task bodies are interleaved:
if the array `pA` holds a band matrix `A` with lower bandwidth `kl` and upper bandwidth `ku`
(its elements outside the band are zero), `plasma_zgbmm` leaves `beta*C + alpha*op(A)*op(B)` in
`pC`. -/
theorem C67_gbmm (hnb : 0 < nb) (ta tb : Trans) (m n k kl ku lda ldb ldc : Nat)
    (hl : GemmLd ta tb m n k lda ldb ldc) (alpha beta : α) (mem mem' : Buf × Nat → α)
    (hband : ∀ p q, p < (if ta = .noTrans then m else k) → q < (if ta = .noTrans then k else m) →
      q + kl < p ∨ p + ku < q → mem (.usr 0, p + q * lda) = 0)
    (h : Exec (gbmmEnv nb (gemmDims ta tb m n k) (ld3 lda ldb ldc) kl ku)
      (zgbmm nb ta tb m n k kl ku alpha beta) mem mem') :
    ∀ i j, i < m → j < n →
      mem' (.usr 2, i + j * ldc) = beta * mem (.usr 2, i + j * ldc) +
        alpha * ∑ l ∈ range k, opE ta (fun p q => mem (.usr 0, p + q * lda)) i l *
                              opE tb (fun p q => mem (.usr 1, p + q * ldb)) l j := by
  intro i j hi hj
  rw [C67_gbmm_tiles hnb ta tb m n k kl ku lda ldb ldc hl alpha beta mem mem' h i j hi hj]
  congr 2
  refine Finset.sum_congr rfl fun l hlk => ?_
  rw [mem_range] at hlk
  congr 1
  have key : ∀ p q, p < (if ta = .noTrans then m else k) → q < (if ta = .noTrans then k else m) →
      (if p / nb * nb < q / nb * nb + nb + kl ∧ q / nb * nb < p / nb * nb + nb + ku
        then mem (.usr 0, p + q * lda) else 0) = mem (.usr 0, p + q * lda) := by
    intro p q hp hq
    by_cases hb : q + kl < p ∨ p + ku < q
    · rw [hband p q hp hq hb, ite_self]
    · exact if_pos (bandTile_of_band hnb (by omega) (by omega))
  cases ta <;> simp only [opE]
  · exact key i l (by simpa using hi) (by simpa using hlk)
  · exact key l i (by simpa using hlk) (by simpa using hi)
  · rw [key l i (by simpa using hlk) (by simpa using hi)]

/-- **C67** (frame).  Only the `m × n` entries of `pC` change. -/
theorem C67_gbmm_frame (hnb : 0 < nb) (ta tb : Trans) (m n k kl ku lda ldb ldc : Nat)
    (hl : GemmLd ta tb m n k lda ldb ldc) (alpha beta : α) (mem mem' : Buf × Nat → α)
    (h : Exec (gbmmEnv nb (gemmDims ta tb m n k) (ld3 lda ldb ldc) kl ku)
      (zgbmm nb ta tb m n k kl ku alpha beta) mem mem') :
    (∀ x, mem' (.usr 0, x) = mem (.usr 0, x)) ∧ (∀ x, mem' (.usr 1, x) = mem (.usr 1, x)) ∧
    (∀ x, (∀ i j, i < m → j < n → x ≠ i + j * ldc) → mem' (.usr 2, x) = mem (.usr 2, x)) := by
  have hg := zgbmm_good (ld := ld3 lda ldb ldc) (kl := kl) (ku := ku) hnb (ta := ta) (tb := tb) (m := m) (n := n) (k := k)
    (alpha := alpha) (beta := beta)
  have hwf := gbmm_wf (kl := kl) (ku := ku) hnb (gemm_ld hl)
  have hw : Writes (fun t => t.1 = .til 0 ∨ t.1 = .til 1 ∨ t.1 = .til 2 ∨ t.1 = .usr 2)
      (zgbmm nb ta tb m n k kl ku alpha beta) := by
    refine Writes.ite (fun _ => Writes.nil) fun _ => ?_
    refine Writes.append (Writes.append (Writes.append (Writes.append ?_ ?_) ?_) ?_) ?_
    · exact pzgb2desc_writes.mono fun t ht => Or.inl ht
    · exact (copyTasks_writes (A := tMat nb _ 1)).mono fun t ht => Or.inr (Or.inl ht)
    · exact (copyTasks_writes (A := tMat nb _ 2)).mono fun t ht => Or.inr (Or.inr (Or.inl ht))
    · exact (ompZgbmm_writes hnb).mono fun t ht => Or.inr (Or.inr (Or.inl ht))
    · exact (copyTasks_writes (A := tMat nb _ 2)).mono fun t ht => Or.inr (Or.inr (Or.inr ht))
  refine ⟨fun x => ?_, fun x => ?_, fun x hx => ?_⟩
  · refine Exec.frame_buf hwf hg h (hw.mono ?_) x
    rintro t (h | h | h | h) <;> rw [h] <;> simp
  · refine Exec.frame_buf hwf hg h (hw.mono ?_) x
    rintro t (h | h | h | h) <;> rw [h] <;> simp
  · exact Exec.frame_pad hwf hg h (a := .usr 2) (l := ldc) rfl x hx

/-- **C67, refuted without the zeros.**  The widths alone do not say which elements of the array
are used: with `kl = ku = 0` (a diagonal matrix) a 2 × 2 array is multiplied as a diagonal matrix
if the tile size is 1, and as a full matrix otherwise. -/
theorem C67_outside_band_refuted (hnb : 0 < nb) (mem mem' : Buf × Nat → α)
    (h : Exec (gbmmEnv nb (gemmDims .noTrans .noTrans 2 1 2) (ld3 2 2 2) 0 0)
      (zgbmm nb .noTrans .noTrans 2 1 2 0 0 1 0) mem mem') :
    mem' (.usr 2, 0) = mem (.usr 0, 0) * mem (.usr 1, 0) +
      (if nb = 1 then 0 else mem (.usr 0, 2) * mem (.usr 1, 1)) := by
  have := C67_gbmm_tiles hnb .noTrans .noTrans 2 1 2 0 0 2 2 2 (by simp [GemmLd]) 1 0 mem mem' h 0 0
    (by omega) (by omega)
  simp only [opE, Finset.sum_range_succ, Finset.sum_range_zero, Nat.zero_div, Nat.add_zero,
    zero_mul, zero_add, one_mul] at this
  rw [this]
  by_cases h1 : nb = 1
  · subst h1; simp
  · have : 1 / nb = 0 := Nat.div_eq_of_lt (by omega)
    simp [h1, this, hnb]

end

/-! ### Arguments -/

/-- The documented arguments of `plasma_zgbmm` (compute/zgbmm.c:44-91); `kl` and `ku` are
bandwidths of the matrix `A`, which is `m × k` or, transposed, `k × m`, and may be empty. -/
def GbmmLegal (ta tb m n k kl ku lda ldb ldc : Int) : Prop :=
  (ta = ArgCheck.NoTrans ∨ ta = ArgCheck.Trans ∨ ta = ArgCheck.ConjTrans) ∧
  (tb = ArgCheck.NoTrans ∨ tb = ArgCheck.Trans ∨ tb = ArgCheck.ConjTrans) ∧
  0 ≤ m ∧ 0 ≤ n ∧ 0 ≤ k ∧ 0 ≤ kl ∧ 0 ≤ ku ∧
  kl ≤ max 0 ((if ta = ArgCheck.NoTrans then m else k) - 1) ∧
  ku ≤ max 0 ((if ta = ArgCheck.NoTrans then k else m) - 1) ∧
  max 1 (if ta = ArgCheck.NoTrans then m else k) ≤ lda ∧
  max 1 (if tb = ArgCheck.NoTrans then k else n) ≤ ldb ∧ max 1 m ≤ ldc

open Verif.ArgCheck in
/-- **C68** (non-transposed, non-empty `A`).  `plasma_zgbmm` accepts exactly the documented
arguments.  The full claim, also for `transa ≠ PlasmaNoTrans` and for `m = 0` or `k = 0`, is false:
`C68_args_refuted`. -/
theorem C68_args_partial {tb m n k kl ku lda ldb ldc : Int} (hm : m ≠ 0) (hk : k ≠ 0) :
    zgbmmArgs ArgCheck.NoTrans tb m n k kl ku lda ldb ldc = 0 ↔
      GbmmLegal ArgCheck.NoTrans tb m n k kl ku lda ldb ldc := by
  unfold zgbmmArgs GbmmLegal
  simp only [if_true, true_or, true_and, ne_eq, not_true_eq_false, false_and, if_false]
  generalize (if tb = ArgCheck.NoTrans then k else n) = bm
  constructor
  · intro h
    split_ifs at h with h2 h3 h4 h5 h6 h7 h8 h9 h10
    refine ⟨by tauto, ?_⟩
    omega
  · rintro ⟨h1, h2⟩
    rw [if_neg (by tauto), if_neg (by omega), if_neg (by omega), if_neg (by omega), if_neg (by omega),
      if_neg (by omega), if_neg (by omega), if_neg (by omega), if_neg (by omega)]

open Verif.ArgCheck in
/-- **C68, refuted.**  Every documented call with `m = 0` is rejected, and so is every transposed
call with more subdiagonals than the transposed matrix has rows. -/
theorem C68_args_refuted {ta tb m n k kl ku lda ldb ldc : Int}
    (hl : GbmmLegal ta tb m n k kl ku lda ldb ldc) (hbad : m = 0 ∨ m ≤ kl) :
    zgbmmArgs ta tb m n k kl ku lda ldb ldc = -6 := by
  obtain ⟨hta, htb, hm, hn, hk, hkl, -⟩ := hl
  unfold zgbmmArgs
  rw [if_neg (by tauto), if_neg (by tauto), if_neg (by omega), if_neg (by omega), if_neg (by omega),
    if_pos (by omega)]

/-- Such calls: an empty `op(A)`; and `op(A)` of size 1 × 5, so `A` of size 5 × 1, with 4
subdiagonals. -/
example : GbmmLegal ArgCheck.NoTrans ArgCheck.NoTrans 0 1 5 0 0 1 5 1 ∧
    GbmmLegal ArgCheck.Trans ArgCheck.NoTrans 1 1 5 4 0 5 5 1 ∧ (1 : Int) ≤ 4 := by
  unfold GbmmLegal; decide

open Verif.Desc in
/-- **C68** (descriptor).  With non-negative widths `plasma_zgbmm` gets past the creation of the band
descriptor exactly if they are smaller than the dimensions of `A` itself. -/
theorem C68_descriptor {nb am an kl ku : Int} (hnb : 0 < nb) (hm : 0 ≤ am) (hn : 0 ≤ an)
    (hkl : 0 ≤ kl) (hku : 0 ≤ ku) :
    (kl < am ∧ ku < an →
      ∃ A, bandCreate true true 5 .general nb nb (gbRows nb kl ku) an 0 0 am an kl ku = .ok A ∧
        check A = true ∧ IsCeil A.mt am nb ∧ IsCeil A.nt an nb ∧ (A.kl, A.ku, A.m, A.n) = (kl, ku, am, an)) ∧
    (¬ (kl < am ∧ ku < an) →
      bandCreate true true 5 .general nb nb (gbRows nb kl ku) an 0 0 am an kl ku = .err errIllegalValue) := by
  constructor
  · rintro ⟨h1, h2⟩
    have hc : check (bandInit 5 .general nb nb (gbRows nb kl ku) an 0 0 am an kl ku) = true := by
      show bandCheck _ = true
      apply bandCheck_ok
      · exact Or.inr (Or.inr (Or.inr rfl))
      · exact hnb
      · exact hnb
      · exact hm
      · exact hn
      · exact le_refl an
      · intro _
        show nb * ((2 * kl + ku + nb).tdiv nb) ≤ gbRows nb kl ku
        unfold gbRows
        rw [Int.tdiv_eq_ediv_of_nonneg (by omega), Int.tdiv_eq_ediv_of_nonneg (by omega),
          Int.tdiv_eq_ediv_of_nonneg (by omega), add_self_ediv _ hnb, mul_comm]
        apply Int.mul_le_mul_of_nonneg_right _ (by omega)
        have := ediv_add_le (a := ku + kl) (b := kl) hnb
        have e : ku + kl + kl = 2 * kl + ku := by ring
        rw [e] at this
        omega
      · intro h
        exact absurd h (by simp [bandInit])
      · intro h
        exact absurd h (by simp [bandInit])
      · rfl
      · rfl
      · exact h1
      · exact h2
    refine ⟨_, ?_, hc, ceil_mt hnb le_rfl hm (dvd_zero _), ceil_mt hnb le_rfl hn (dvd_zero _), rfl⟩
    unfold bandCreate
    rw [if_neg (by simp), if_neg (by omega)]
    simp only [hc, not_true_eq_false, if_false]
  · intro hb
    have hc : check (bandInit 5 .general nb nb (gbRows nb kl ku) an 0 0 am an kl ku) = false := by
      show bandCheck _ = false
      unfold bandCheck
      split_ifs with h1 h2 h3 h4 h5 h6 h7 h8 h9
      all_goals first | rfl | skip
      refine absurd ?_ h9
      show kl + 1 > am ∨ ku + 1 > an
      omega
    unfold bandCreate
    rw [if_neg (by simp), if_neg (by omega)]
    simp only [hc]
    simp

/-- The hypotheses of C67 are met by a tridiagonal 5 × 4 matrix transposed, tiles of size 2, with
padding, and some execution exists. -/
example : ∃ mem mem' : Buf × Nat → ℤ, GemmLd .trans .noTrans 4 3 5 7 8 9 ∧
    (∀ p q, p < 5 → q < 4 → q + 1 < p ∨ p + 1 < q → mem (.usr 0, p + q * 7) = 0) ∧
    mem (.usr 0, 1) ≠ 0 ∧
    Exec (gbmmEnv 2 (gemmDims .trans .noTrans 4 3 5) (ld3 7 8 9) 1 1)
      (zgbmm 2 .trans .noTrans 4 3 5 1 1 2 3) mem mem' := by
  have hl : GemmLd .trans .noTrans 4 3 5 7 8 9 := by simp [GemmLd]
  let mem : Buf × Nat → ℤ := fun x => if x.1 = .usr 0 then
    (if (x.2 / 7) + 1 < x.2 % 7 ∨ x.2 % 7 + 1 < x.2 / 7 then 0 else 5) else 3
  obtain ⟨mem', h⟩ := zgbmm_exists (kl := 1) (ku := 1) (nb := 2) (by decide) hl (alpha := (2 : ℤ)) (beta := 3) mem
  refine ⟨mem, mem', hl, ?_, by decide, h⟩
  intro p q hp hq hb
  have e1 : (p + q * 7) / 7 = q := by omega
  have e2 : (p + q * 7) % 7 = p := by omega
  show (if (Buf.usr 0, p + q * 7).1 = Buf.usr 0 then _ else (3 : ℤ)) = 0
  rw [if_pos rfl, if_pos (by simp only [e1, e2]; exact hb)]

end Verif.Props

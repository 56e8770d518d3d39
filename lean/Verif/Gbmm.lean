/-
Multiplication by a band matrix: `plasma_pzgb2desc` and the band branch of `plasma_pzgemm`.
-/
import Verif.GemmProof
import Mathlib.Algebra.BigOperators.Intervals

namespace Verif.Tile

open Verif.Layout Finset

universe u v

set_option linter.unusedSectionVars false

variable {M : Type u} {α : Type v}

/-- Descriptor of a rectangular band matrix with room for the fill-in of an LU factorization
(`plasma_desc_general_band_init` with `PlasmaGeneral`, control/descriptor.c:178-213), as created
by `plasma_zgbmm` (compute/zgbmm.c:205-217): `lm` allocated rows, offsets 0. -/
def bandR (id : M) (b lm m n kl ku : Nat) : TMat M where
  id := id
  d := { general b b lm n 0 0 m n with
    type := .band
    kl := kl
    ku := ku
    klt := 1 + (0 + kl + b - 1) / b - 0 / b
    kut := 1 + (0 + ku + kl + b - 1) / b - 0 / b }

theorem bandR_al (id : M) {b : Nat} (hb : 0 < b) (lm m n kl ku : Nat) : (bandR id b lm m n kl ku).Al b :=
  ⟨hb, rfl, rfl, Nat.zero_mod b, Nat.zero_mod b, rfl, rfl⟩

/-- `plasma_pzgb2desc` (compute/pzgb2desc.c:22-67): whole tiles are copied, those without an
element of the band are skipped.  Simplification: as for `pzge2desc`. -/
def pzgb2desc (U A : TMat M) : List (TTask (M × Nat × Nat) α) :=
  (List.range A.d.mt).flatMap fun m => (List.range A.d.nt).flatMap fun n =>
    if A.d.klt + n ≤ m ∨ 1 + (A.d.ku + A.d.nb - 1) / A.d.nb + m ≤ n then []
    else [lacpyRect (cpLo A.d.i A.d.mb m) (cpHi A.d.i A.d.m A.d.mb A.d.mt m)
      (cpLo A.d.j A.d.nb n) (cpHi A.d.j A.d.n A.d.nb A.d.nt n) (U.at' m n) (A.at' m n)]

/-- First index of the loops over `k` in the band branch, for the bandwidth `kw` on the side of
the smaller indices: `(imax(0, m*A.nb-A.kl)) / A.nb` (compute/pzgemm.c:166,212,255,302). -/
def kStart (b kw m : Nat) : Nat := (m * b - kw) / b
/-- Last index: `(imin(A.n-1, (m+1)*A.nb+A.ku-1)) / A.nb` (compute/pzgemm.c:167,213,256,303). -/
def kEnd (b sz kw m : Nat) : Nat := min (sz - 1) ((m + 1) * b + kw - 1) / b

section ring
variable [CommRing α] [StarRing α] [DecidableEq α]

/-- `plasma_pzgemm` for a band matrix `A` (compute/pzgemm.c:139-334).  The call made when the
loop over `k` is empty has `alpha = 0`; by the BLAS specification it refers to neither `A` nor
`B`, so its inner dimension, `nvak` in the code, is 0 here (the tile `A(m, 0)` it names need not
be one of the stored tiles). -/
def pzgemmBand (ta tb : Trans) (alpha : α) (A B : TMat M) (beta : α) (C : TMat M) :
    List (TTask (M × Nat × Nat) α) :=
  (List.range C.d.mt).flatMap fun m => (List.range C.d.nt).flatMap fun n =>
    let mvcm := C.d.mview m
    let nvcn := C.d.nview n
    let inner_k := if ta = .noTrans then A.d.n else A.d.m
    if alpha = 0 ∨ inner_k = 0 then
      [coreGemm ta tb mvcm nvcn 0 alpha (A.at' 0 0) (B.at' 0 0) beta (C.at' m n)]
    else if ta = .noTrans then
      let ks := kStart A.d.nb A.d.kl m
      let ke := kEnd A.d.nb A.d.n A.d.ku m
      if tb = .noTrans then
        ((List.range' ks (ke + 1 - ks)).map fun k =>
          coreGemm ta tb mvcm nvcn (A.d.nview k) alpha (A.at' m k) (B.at' k n)
            (if k = ks then beta else 1) (C.at' m n)) ++
        (if ke < ks then [coreGemm ta tb mvcm nvcn 0 0 (A.at' m 0) (B.at' 0 n) beta (C.at' m n)] else [])
      else
        ((List.range' ks (ke + 1 - ks)).map fun k =>
          coreGemm ta tb mvcm nvcn (A.d.nview k) alpha (A.at' m k) (B.at' n k)
            (if k = ks then beta else 1) (C.at' m n)) ++
        (if ke < ks then [coreGemm ta tb mvcm nvcn 0 0 (A.at' m 0) (B.at' n 0) beta (C.at' m n)] else [])
    else
      let ks := kStart A.d.mb A.d.ku m
      let ke := kEnd A.d.mb A.d.m A.d.kl m
      if tb = .noTrans then
        ((List.range' ks (ke + 1 - ks)).map fun k =>
          coreGemm ta tb mvcm nvcn (A.d.mview k) alpha (A.at' k m) (B.at' k n)
            (if k = ks then beta else 1) (C.at' m n)) ++
        (if ke < ks then [coreGemm ta tb mvcm nvcn 0 0 (A.at' 0 m) (B.at' 0 n) beta (C.at' m n)] else [])
      else
        ((List.range' ks (ke + 1 - ks)).map fun k =>
          coreGemm ta tb mvcm nvcn (A.d.mview k) alpha (A.at' k m) (B.at' n k)
            (if k = ks then beta else 1) (C.at' m n)) ++
        (if ke < ks then [coreGemm ta tb mvcm nvcn 0 0 (A.at' 0 m) (B.at' n 0) beta (C.at' m n)] else [])

/-- `plasma_omp_zgbmm` after its argument checks (compute/zgbmm.c:388-400). -/
def ompZgbmm (ta tb : Trans) (alpha : α) (A B : TMat M) (beta : α) (C : TMat M) :
    List (TTask (M × Nat × Nat) α) :=
  let k := if ta = .noTrans then A.d.n else A.d.m
  if C.d.m = 0 ∨ C.d.n = 0 ∨ ((alpha = 0 ∨ k = 0) ∧ beta = 1) then []
  else pzgemmBand ta tb alpha A B beta C

end ring

/-! ### The tiles that hold part of the band -/

/-- Tile `(m, n)` holds a place of the band with `kl` sub- and `ku` superdiagonals, were the
matrix large enough. -/
def bandTile (b kl ku m n : Nat) : Prop := m * b < n * b + b + kl ∧ n * b < m * b + b + ku

instance (b kl ku m n : Nat) : Decidable (bandTile b kl ku m n) := by unfold bandTile; infer_instance

theorem gb2desc_skip {b kl ku m n : Nat} (hb : 0 < b) :
    ((1 + (0 + kl + b - 1) / b - 0 / b) + n ≤ m ∨ 1 + (ku + b - 1) / b + m ≤ n) ↔ ¬ bandTile b kl ku m n := by
  have k1 : ∀ k d, d < 1 + (k + b - 1) / b ↔ d * b < b + k := by
    intro k d
    rw [Nat.add_comm 1, Nat.lt_add_one_iff, Nat.le_div_iff_mul_le hb]
    omega
  have h1 := k1 kl (m - n)
  have h2 := k1 ku (n - m)
  rw [Nat.sub_mul] at h1 h2
  have e1 : m < n → m * b < n * b := fun h => Nat.mul_lt_mul_of_pos_right h hb
  have e2 : n < m → n * b < m * b := fun h => Nat.mul_lt_mul_of_pos_right h hb
  have e3 : m = n → m * b = n * b := fun h => by rw [h]
  have d1 : 0 < 1 + (kl + b - 1) / b := by positivity
  have d2 : 0 < 1 + (ku + b - 1) / b := by positivity
  unfold bandTile
  rw [Nat.zero_add, Nat.zero_div, Nat.sub_zero]
  generalize 1 + (kl + b - 1) / b = x1 at *
  generalize 1 + (ku + b - 1) / b = x2 at *
  generalize m * b = X at *
  generalize n * b = Y at *
  omega

theorem mem_k {b sz kw kw' m t : Nat} (hb : 0 < b) (hs : 0 < sz) :
    (kStart b kw m ≤ t ∧ t < kEnd b sz kw' m + 1) ↔
      t < ceilDiv sz b ∧ m * b < t * b + b + kw ∧ t * b < m * b + b + kw' := by
  unfold kStart kEnd
  rw [lt_ceilDiv hb, Nat.lt_add_one_iff, Nat.le_div_iff_mul_le hb, ← Nat.lt_add_one_iff,
    Nat.div_lt_iff_lt_mul hb, Nat.add_mul, Nat.add_mul, Nat.one_mul, Nat.le_min]
  omega

/-! ### Translation of the band matrix -/

theorem pzgb2desc_writes {U A : TMat M} :
    Writes (fun t => t.1 = A.id) (pzgb2desc (α := α) U A) :=
  Writes.flatMap fun _ _ => Writes.flatMap fun _ _ =>
    Writes.ite (fun _ => Writes.nil) (fun _ => writes_op1 rfl)

theorem pzgb2desc_good {env : M → MatEnv} {b lm m n kl ku : Nat} {id : M} {U : TMat M} (hb : 0 < b)
    (hU : Fits env b U) (hV : FitsOn env b (bandTile b kl ku) (bandR id b lm m n kl ku))
    (hUm : m ≤ U.d.m) (hUn : n ≤ U.d.n) :
    Good (evalid env) (pzgb2desc (α := α) U (bandR id b lm m n kl ku)) := by
  have hA := bandR_al id hb lm m n kl ku
  refine Good.flatMap fun p hp => Good.flatMap fun q hq => ?_
  rw [List.mem_range] at hp hq
  refine Good.ite (fun _ => Good.nil) fun hs => ?_
  have ht : bandTile b kl ku p q := by
    by_contra hc
    exact hs ((gb2desc_skip hb).mpr hc)
  refine Good.single ?_ op1_declared ?_
  · exact op1_local (fun A A' _ _ hA _ i j hij => hA i j hij)
  · apply op1_inside
    · intro i j hij
      rw [cp_rect hA hp hq] at hij
      have e1 : (bandR id b lm m n kl ku).d.m = m := rfl
      have e2 : (bandR id b lm m n kl ku).d.n = n := rfl
      rw [e1, e2] at hij
      apply hU.valid <;> [have := hij.1; have := hij.2] <;> rw [tdim_row] at * <;> omega
    · intro i j hij
      rw [cp_rect hA hp hq] at hij
      exact hV.validOn ht hij.1 hij.2

theorem pzgb2desc_el {b lm m n kl ku : Nat} {id : M} {U : TMat M} (hU : U.Al b)
    (hne : U.id ≠ id) (s : Store (M × Nat × Nat) α) {r c : Nat} (hr : r < m) (hc : c < n)
    (ht : bandTile b kl ku (r / b) (c / b)) :
    (bandR id b lm m n kl ku).el (texec (pzgb2desc U (bandR id b lm m n kl ku)) s) r c = U.el s r c := by
  have hb := hU.pos
  have hA := bandR_al id hb lm m n kl ku
  generalize hV : bandR id b lm m n kl ku = V at hA ⊢
  have hVid : V.id = id := by rw [← hV]; rfl
  have hVm : r < V.d.m := by rw [← hV]; exact hr
  have hVn : c < V.d.n := by rw [← hV]; exact hc
  have hsk : ∀ p q, (V.d.klt + q ≤ p ∨ 1 + (V.d.ku + V.d.nb - 1) / V.d.nb + p ≤ q) ↔
      ¬ bandTile b kl ku p q := by
    intro p q; rw [← hV]; exact gb2desc_skip hb
  unfold pzgb2desc
  rw [flatMap_product]
  simp only [TMat.el, hA.mb, hA.nb, hU.mb, hU.nb]
  have hm := hA.row_mt hVm
  have hn := hA.col_nt hVn
  rw [texec_indep (D := fun p t => t = U.at' p.1 p.2 ∨ t = V.at' p.1 p.2) ?_ ?_ ?_ s
    (x := (r / b, c / b)) ?_ (Or.inr rfl)]
  · have : ¬ (V.d.klt + c / b ≤ r / b ∨ 1 + (V.d.ku + b - 1) / b + r / b ≤ c / b) := by
      have := (hsk (r / b) (c / b)).not
      rw [hA.nb] at this
      rw [this]; exact not_not.mpr ht
    simp only [this, if_false, texec_cons, texec_nil]
    unfold lacpyRect
    rw [op1_self, paste_in]
    have := (cp_rect hA hm hn (i := r % b) (j := c % b)).mpr ⟨mod_lt_tdim hb hVm, mod_lt_tdim hb hVn⟩
    rwa [hA.mb, hA.nb] at this
  · exact List.nodup_range.product List.nodup_range
  · intro p _
    split
    · exact ⟨by simp, by simp⟩
    · exact lacpyRect_within (Or.inl rfl) (Or.inr rfl)
  · intro p _ q _ hpq
    refine Writes.ite (fun _ => Writes.nil) fun _ => ?_
    apply writes_op1
    rintro (h | h)
    · exact TMat.at'_ne (by rw [hVid]; exact hne.symm) h
    · rw [TMat.at'_inj] at h
      exact hpq (Prod.ext h.1 h.2)
  · simp only [SProd.sprod]
    rw [List.pair_mem_product]
    simp [hm, hn]

/-! ### The multiplication -/

section ring
variable [CommRing α] [StarRing α] [DecidableEq α]

/-- The loops over `k` in a uniform way: tiles of `op(A)` from `kStart` on. -/
def bandLoop (ta tb : Trans) (b k : Nat) (alpha : α) (A B : TMat M) (beta : α) (C : TMat M)
    (ks ke m n : Nat) : List (TTask (M × Nat × Nat) α) :=
  ((List.range (ke + 1 - ks)).map fun l =>
    coreGemm ta tb (C.d.mview m) (C.d.nview n) (tdim k b (ks + l)) alpha (opTile ta A m (ks + l))
      (opTile tb B (ks + l) n) (if l = 0 then beta else 1) (C.at' m n)) ++
  (if ke < ks then
    [coreGemm ta tb (C.d.mview m) (C.d.nview n) 0 0 (opTile ta A m 0) (opTile tb B 0 n) beta (C.at' m n)]
   else [])

theorem pzgemmBand_eq {ta tb : Trans} {k b : Nat} {alpha beta : α} {A B C : TMat M}
    (hA : A.Al b) (hs : GemmShape ta tb k A B C) :
    pzgemmBand ta tb alpha A B beta C =
    (List.range C.d.mt).flatMap fun m => (List.range C.d.nt).flatMap fun n =>
      if alpha = 0 ∨ k = 0 then
        [coreGemm ta tb (C.d.mview m) (C.d.nview n) 0 alpha (A.at' 0 0) (B.at' 0 0) beta (C.at' m n)]
      else bandLoop ta tb b k alpha A B beta C
        (kStart b (if ta = .noTrans then A.d.kl else A.d.ku) m)
        (kEnd b k (if ta = .noTrans then A.d.ku else A.d.kl) m) m n := by
  unfold pzgemmBand
  simp only [hs.an]
  congr 1; funext m; congr 1; funext n
  by_cases h0 : alpha = 0 ∨ k = 0
  · simp only [h0, if_true]
  simp only [h0, if_false]
  have hk0 : 0 < k := by rw [not_or] at h0; omega
  have hin : ∀ {kw kw' l : Nat}, l ∈ List.range (kEnd b k kw' m + 1 - kStart b kw m) →
      kStart b kw m + l < ceilDiv k b := by
    intro kw kw' l hl
    rw [List.mem_range] at hl
    exact ((mem_k (b := b) (sz := k) (kw := kw) (kw' := kw') (m := m) hA.pos hk0).mp
      ⟨Nat.le_add_right _ _, by omega⟩).1
  have hif : ∀ ks l : Nat, (if ks + l = ks then beta else 1) = if l = 0 then beta else 1 := by
    intro ks l
    by_cases h : l = 0
    · simp [h]
    · rw [if_neg (by omega), if_neg h]
  by_cases ha : ta = .noTrans
  · have hk : A.d.n = k := by have := hs.an; simpa [ha] using this
    have hnt : A.d.nt = ceilDiv k b := by rw [hA.nt_eq, hk]
    have hv : ∀ {kw kw' l : Nat}, l ∈ List.range (kEnd b k kw' m + 1 - kStart b kw m) →
        A.d.nview (kStart b kw m + l) = tdim k b (kStart b kw m + l) := by
      intro kw kw' l hl
      rw [hA.nview (by rw [hnt]; exact hin hl), hk]
    by_cases hb : tb = .noTrans
    · simp only [ha, hb, if_true, opTile, bandLoop, hA.nb, hk, List.range'_eq_map_range, List.map_map]
      congr 1
      apply List.map_congr_left
      intro l hl
      simp only [Function.comp_apply, hif, hv hl]
    · simp only [ha, hb, if_true, if_false, opTile, bandLoop, hA.nb, hk, List.range'_eq_map_range, List.map_map]
      congr 1
      apply List.map_congr_left
      intro l hl
      simp only [Function.comp_apply, hif, hv hl]
  · have hk : A.d.m = k := by have := hs.an; simpa [ha] using this
    have hnt : A.d.mt = ceilDiv k b := by rw [hA.mt_eq, hk]
    have hv : ∀ {kw kw' l : Nat}, l ∈ List.range (kEnd b k kw' m + 1 - kStart b kw m) →
        A.d.mview (kStart b kw m + l) = tdim k b (kStart b kw m + l) := by
      intro kw kw' l hl
      rw [hA.mview (by rw [hnt]; exact hin hl), hk]
    by_cases hb : tb = .noTrans
    · simp only [ha, hb, if_true, if_false, opTile, bandLoop, hA.mb, hk, List.range'_eq_map_range, List.map_map]
      congr 1
      apply List.map_congr_left
      intro l hl
      simp only [Function.comp_apply, hif, hv hl]
    · simp only [ha, hb, if_false, opTile, bandLoop, hA.mb, hk, List.range'_eq_map_range, List.map_map]
      congr 1
      apply List.map_congr_left
      intro l hl
      simp only [Function.comp_apply, hif, hv hl]

theorem bandLoop_writes {ta tb : Trans} {b k : Nat} {alpha beta : α} {A B C : TMat M} {ks ke m n : Nat}
    {D : M × Nat × Nat → Prop} (hD : D (C.at' m n)) :
    Writes D (bandLoop ta tb b k alpha A B beta C ks ke m n) :=
  (Writes.map fun _ _ => writes_op2 hD).append
    (Writes.ite (fun _ => writes_op2 hD) (fun _ => Writes.nil))

theorem bandLoop_mem {ta tb : Trans} {b k : Nat} {alpha beta : α} {A B C : TMat M} {ks ke m n : Nat}
    {t : TTask (M × Nat × Nat) α} (ht : t ∈ bandLoop ta tb b k alpha A B beta C ks ke m n) :
    ∃ (k' : Nat) (al be : α) (x y : M × Nat × Nat), x.1 = A.id ∧ y.1 = B.id ∧
      t = coreGemm ta tb (C.d.mview m) (C.d.nview n) k' al x y be (C.at' m n) := by
  unfold bandLoop at ht
  rcases List.mem_append.mp ht with ht | ht
  · obtain ⟨l, _, rfl⟩ := List.mem_map.mp ht
    exact ⟨_, _, _, _, _, opTile_id, opTile_id, rfl⟩
  · split at ht
    · rw [List.mem_singleton] at ht
      exact ⟨_, _, _, _, _, opTile_id, opTile_id, ht⟩
    · simp at ht

/-- The loop over `k` and the call after it. -/
theorem bandLoop_self {ta tb : Trans} {b k : Nat} {alpha beta : α} {A B C : TMat M} {ks ke m n : Nat}
    (hac : A.id ≠ C.id) (hbc : B.id ≠ C.id) (s : Store (M × Nat × Nat) α) {i j : Nat}
    (hij : box (C.d.mview m) (C.d.nview n) i j) :
    texec (bandLoop ta tb b k alpha A B beta C ks ke m n) s (C.at' m n) i j =
      beta * s (C.at' m n) i j + alpha * ∑ t ∈ Ico ks (ke + 1), ∑ l ∈ range (tdim k b t),
        opE ta (s (opTile ta A m t)) i l * opE tb (s (opTile tb B t n)) l j := by
  have hneA : ∀ l, opTile ta A m l ≠ C.at' m n := fun l h =>
    hac (by have := congrArg Prod.fst h; rwa [opTile_id] at this)
  have hneB : ∀ l, opTile tb B l n ≠ C.at' m n := fun l h =>
    hbc (by have := congrArg Prod.fst h; rwa [opTile_id] at this)
  unfold bandLoop
  rw [texec_append]
  by_cases he : ke < ks
  · rw [if_pos he, show ke + 1 - ks = 0 by omega]
    simp only [List.range_zero, List.map_nil, texec_cons, texec_nil]
    unfold coreGemm
    rw [op2_self, paste_in hij]
    rw [Finset.Ico_eq_empty (by omega)]
    simp
  · rw [if_neg he, texec_nil]
    rw [gemm_acc (fun l => hneA (ks + l)) (fun l => hneB (ks + l)) s _ hij, if_neg (by omega),
      Finset.sum_Ico_eq_sum_range]

/-- `A` with everything outside the tiles of the band set to zero. -/
def tileBand (b kl ku : Nat) (A : Nat → Nat → α) (r c : Nat) : α :=
  if bandTile b kl ku (r / b) (c / b) then A r c else 0

omit [DecidableEq α] in
theorem opE_tileBand {ta : Trans} {b kl ku : Nat} {A : Nat → Nat → α} {r c : Nat} :
    opE ta (tileBand b kl ku A) r c =
      if (if ta = .noTrans then bandTile b kl ku (r / b) (c / b) else bandTile b kl ku (c / b) (r / b))
      then opE ta A r c else 0 := by
  cases ta <;> simp [opE, tileBand] <;> split_ifs <;> simp

/-- Element-level effect of the band branch of `pzgemm`. -/
theorem pzgemmBand_el {ta tb : Trans} {k b : Nat} {alpha beta : α} {A B C : TMat M}
    (hA : A.Al b) (hB : B.Al b) (hC : C.Al b) (hs : GemmShape ta tb k A B C)
    (hac : A.id ≠ C.id) (hbc : B.id ≠ C.id) (s : Store (M × Nat × Nat) α) {r c : Nat}
    (hr : r < C.d.m) (hc : c < C.d.n) :
    C.el (texec (pzgemmBand ta tb alpha A B beta C) s) r c =
      beta * C.el s r c + alpha * ∑ l ∈ range k,
        opE ta (tileBand b A.d.kl A.d.ku (A.el s)) r l * opE tb (B.el s) l c := by
  have hb := hC.pos
  rw [pzgemmBand_eq hA hs, flatMap_product]
  have hm := hC.row_mt hr
  have hn := hC.col_nt hc
  have hrb := Nat.mod_lt r hb
  have hcb := Nat.mod_lt c hb
  have hr' : r / b * b + r % b = r := by rw [Nat.mul_comm]; exact Nat.div_add_mod r b
  have hc' : c / b * b + c % b = c := by rw [Nat.mul_comm]; exact Nat.div_add_mod c b
  have hbox : box (C.d.mview (r / b)) (C.d.nview (c / b)) (r % b) (c % b) := by
    rw [hC.mview hm, hC.nview hn]
    exact ⟨mod_lt_tdim hb hr, mod_lt_tdim hb hc⟩
  have hgw : ∀ {p : Nat × Nat} {D : M × Nat × Nat → Prop} , D (C.at' p.1 p.2) →
      Writes D (if alpha = 0 ∨ k = 0 then
        [coreGemm ta tb (C.d.mview p.1) (C.d.nview p.2) 0 alpha (A.at' 0 0) (B.at' 0 0) beta (C.at' p.1 p.2)]
      else bandLoop ta tb b k alpha A B beta C
        (kStart b (if ta = .noTrans then A.d.kl else A.d.ku) p.1)
        (kEnd b k (if ta = .noTrans then A.d.ku else A.d.kl) p.1) p.1 p.2) := fun hD =>
    Writes.ite (fun _ => writes_op2 hD) (fun _ => bandLoop_writes hD)
  simp only [TMat.el, hC.mb, hC.nb]
  rw [texec_indep (D := fun p t => t.1 = A.id ∨ t.1 = B.id ∨ t = C.at' p.1 p.2) ?_ ?_ ?_ s
    (x := (r / b, c / b)) ?_ (Or.inr (Or.inr rfl))]
  · by_cases h0 : alpha = 0 ∨ k = 0
    · simp only [h0, if_true, texec_cons, texec_nil]
      unfold coreGemm
      rw [op2_self, paste_in hbox]
      rcases h0 with h0 | h0 <;> simp [h0]
    · simp only [h0, if_false]
      rw [bandLoop_self hac hbc s hbox]
      have hk : 0 < k := by rw [not_or] at h0; omega
      congr 2
      refine Eq.trans ?_ (sum_tiles hb (fun l => opE ta (tileBand b A.d.kl A.d.ku (A.el s)) r l * opE tb (B.el s) l c))
      have hdiv : ∀ t l, l < b → (t * b + l) / b = t := by
        intro t l hl
        rw [Nat.mul_comm, Nat.mul_add_div hb, Nat.div_eq_of_lt hl, Nat.add_zero]
      have key : ∀ t, (if ta = .noTrans then bandTile b A.d.kl A.d.ku (r / b) t else bandTile b A.d.kl A.d.ku t (r / b)) ↔
          (r / b * b < t * b + b + (if ta = .noTrans then A.d.kl else A.d.ku) ∧
            t * b < r / b * b + b + (if ta = .noTrans then A.d.ku else A.d.kl)) := by
        intro t
        unfold bandTile
        split <;> tauto
      have e0 : ∀ t, ∀ l ∈ range (tdim k b t),
          opE ta (tileBand b A.d.kl A.d.ku (A.el s)) r (t * b + l) * opE tb (B.el s) (t * b + l) c =
          if (if ta = .noTrans then bandTile b A.d.kl A.d.ku (r / b) t else bandTile b A.d.kl A.d.ku t (r / b)) then
            opE ta (s (opTile ta A (r / b) t)) (r % b) l * opE tb (s (opTile tb B t (c / b))) l (c % b) else 0 := by
        intro t l hl
        rw [mem_range, tdim_row] at hl
        have e1 := opE_tile_left (t := ta) hA s (m := r / b) (k := t) hrb hl.1
        have e2 := opE_tile_left (t := tb) hB s (m := t) (k := c / b) hl.1 hcb
        rw [opE_tileBand, hdiv t l hl.1, e1, e2, hr', hc']
        split <;> simp
      have e1 : ∀ t ∈ Ico (kStart b (if ta = .noTrans then A.d.kl else A.d.ku) (r / b))
          (kEnd b k (if ta = .noTrans then A.d.ku else A.d.kl) (r / b) + 1),
          ∑ l ∈ range (tdim k b t),
            opE ta (s (opTile ta A (r / b) t)) (r % b) l * opE tb (s (opTile tb B t (c / b))) l (c % b) =
          ∑ l ∈ range (tdim k b t),
            opE ta (tileBand b A.d.kl A.d.ku (A.el s)) r (t * b + l) * opE tb (B.el s) (t * b + l) c := by
        intro t ht
        rw [Finset.mem_Ico, mem_k hb hk] at ht
        refine Finset.sum_congr rfl fun l hl => ?_
        rw [e0 t l hl, if_pos ((key t).mpr ht.2)]
      rw [Finset.sum_congr rfl e1]
      refine Finset.sum_subset ?_ ?_
      · intro t ht
        rw [Finset.mem_Ico, mem_k hb hk] at ht
        exact mem_range.mpr ht.1
      · intro t ht ht'
        rw [Finset.mem_Ico, mem_k hb hk] at ht'
        refine Finset.sum_eq_zero fun l hl => ?_
        rw [e0 t l hl, if_neg]
        intro hb'
        exact ht' ⟨mem_range.mp ht, (key t).mp hb'⟩
  · exact List.nodup_range.product List.nodup_range
  · intro p _
    have hw : ∀ {m n k : Nat} {al be : α} {a b' c : M × Nat × Nat}, a.1 = A.id → b'.1 = B.id →
        c = C.at' p.1 p.2 → Within (fun t => t.1 = A.id ∨ t.1 = B.id ∨ t = C.at' p.1 p.2)
          [coreGemm ta tb m n k al a b' be c] := by
      intro m n k al be a b' c ha hb' hc
      constructor
      · intro t ht; simp only [List.mem_singleton] at ht; subst ht; exact coreGemm_local
      · intro t ht; simp only [List.mem_singleton] at ht; subst ht
        exact op2_inside (fun _ _ _ => Or.inl ha) (fun _ _ _ => Or.inr (Or.inl hb'))
          (fun _ _ _ => Or.inr (Or.inr hc))
    have hall : ∀ t ∈ (if alpha = 0 ∨ k = 0 then
        [coreGemm ta tb (C.d.mview p.1) (C.d.nview p.2) 0 alpha (A.at' 0 0) (B.at' 0 0) beta (C.at' p.1 p.2)]
      else bandLoop ta tb b k alpha A B beta C
        (kStart b (if ta = .noTrans then A.d.kl else A.d.ku) p.1)
        (kEnd b k (if ta = .noTrans then A.d.ku else A.d.kl) p.1) p.1 p.2),
        ∃ (k' : Nat) (al be : α) (x y : M × Nat × Nat), x.1 = A.id ∧ y.1 = B.id ∧
          t = coreGemm ta tb (C.d.mview p.1) (C.d.nview p.2) k' al x y be (C.at' p.1 p.2) := by
      intro t ht
      split at ht
      · rw [List.mem_singleton] at ht
        exact ⟨_, _, _, _, _, rfl, rfl, ht⟩
      · exact bandLoop_mem ht
    constructor
    · intro t ht
      obtain ⟨k', al, be, x, y, hx, hy, rfl⟩ := hall t ht
      exact coreGemm_local
    · intro t ht
      obtain ⟨k', al, be, x, y, hx, hy, rfl⟩ := hall t ht
      exact (hw hx hy rfl).2 _ (List.mem_singleton.mpr rfl)
  · intro p _ q _ hpq
    refine hgw ?_
    rintro (h | h | h)
    · exact hac h.symm
    · exact hbc h.symm
    · rw [TMat.at'_inj] at h; exact hpq (Prod.ext h.1 h.2)
  · simp only [SProd.sprod]
    rw [List.pair_mem_product]
    simp [hm, hn]

theorem pzgemmBand_writes {ta tb : Trans} {k b : Nat} {alpha beta : α} {A B C : TMat M}
    (hA : A.Al b) (hs : GemmShape ta tb k A B C) :
    Writes (fun t => t.1 = C.id) (pzgemmBand ta tb alpha A B beta C) := by
  rw [pzgemmBand_eq hA hs]
  exact Writes.flatMap fun m _ => Writes.flatMap fun n _ =>
    Writes.ite (fun _ => writes_op2 rfl) (fun _ => bandLoop_writes rfl)

theorem pzgemmBand_good {env : M → MatEnv} {ta tb : Trans} {k b : Nat} {alpha beta : α} {A B C : TMat M}
    (hA : FitsOn env b (bandTile b A.d.kl A.d.ku) A) (hB : Fits env b B) (hC : Fits env b C)
    (hs : GemmShape ta tb k A B C) :
    Good (evalid env) (pzgemmBand ta tb alpha A B beta C) := by
  have hb := hC.al.pos
  rw [pzgemmBand_eq hA.al hs]
  refine Good.flatMap fun m hm => Good.flatMap fun n hn => ?_
  rw [List.mem_range] at hm hn
  have hc : ∀ i j, box (C.d.mview m) (C.d.nview n) i j → evalid env (C.at' m n) i j := by
    intro i j hij
    rw [hC.al.mview hm, hC.al.nview hn] at hij
    exact hC.valid hij.1 hij.2
  have h00 : ∀ {al be : α} {x y : M × Nat × Nat}, Good (evalid env)
      [coreGemm ta tb (C.d.mview m) (C.d.nview n) 0 al x y be (C.at' m n)] := by
    intro al be x y
    refine Good.single coreGemm_local op2_declared (op2_inside ?_ ?_ hc)
    · intro i j h; split at h <;> simp [box] at h
    · intro i j h; split at h <;> simp [box] at h
  refine Good.ite (fun _ => h00) fun h0 => ?_
  have hk : 0 < k := by rw [not_or] at h0; omega
  unfold bandLoop
  refine Good.append ?_ (Good.ite (fun _ => h00) (fun _ => Good.nil))
  refine Good.map fun l hl => Good.single coreGemm_local op2_declared (op2_inside ?_ ?_ hc)
  · intro i j h
    rw [List.mem_range] at hl
    have hmem := (mem_k (b := b) (sz := k) (kw := if ta = .noTrans then A.d.kl else A.d.ku)
      (kw' := if ta = .noTrans then A.d.ku else A.d.kl) (m := m) hb hk).mp
      ⟨Nat.le_add_right _ l, by omega⟩
    rw [hC.al.mview hm] at h
    have h1 := hs.am; have h2 := hs.an
    unfold opTile
    split at h <;> rename_i ht <;> simp only [ht, if_true, if_false] at h1 h2 hmem ⊢
    · exact hA.validOn ⟨hmem.2.1, hmem.2.2⟩ (by rw [h1]; exact h.1) (by rw [h2]; simpa [ht] using h.2)
    · exact hA.validOn ⟨hmem.2.2, hmem.2.1⟩ (by rw [h2]; simpa [ht] using h.1) (by rw [h1]; exact h.2)
  · intro i j h
    rw [hC.al.nview hn] at h
    have h1 := hs.bm; have h2 := hs.bn
    unfold opTile
    split at h <;> rename_i ht <;> simp only [ht, if_true, if_false] at h1 h2 ⊢
    · exact hB.valid (by rw [h1]; exact h.1) (by rw [h2]; exact h.2)
    · exact hB.valid (by rw [h2]; exact h.1) (by rw [h1]; exact h.2)

end ring

end Verif.Tile

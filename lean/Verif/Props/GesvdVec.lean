/-
Properties of the singular value routine with vectors: C91.
-/
import Verif.Props.GesddVec
import Verif.Props.Gesvd
import Verif.Props.GbbrdVec
import Verif.Props.Blgtrd
import Mathlib.Analysis.InnerProductSpace.PiL2

namespace Verif.Props

open Verif.Layout Verif.Tile Verif.Tree Verif.Qr Verif.Fact Verif.Bulge Verif.Svd Finset Matrix

universe v

set_option linter.unusedSectionVars false

section
variable {𝕜 : Type v} [RCLike 𝕜] {k m n un vm : Nat}

/-- The matrix of singular values. -/
noncomputable def sigM (𝕜 : Type v) [RCLike 𝕜] (un vm : Nat) (S : Nat → ℝ) : Matrix (Fin un) (Fin vm) 𝕜 :=
  of fun i j => if i.1 = j.1 then (S i.1 : 𝕜) else 0

theorem sig_mul {X : Nat → Nat → 𝕜} {S : Nat → ℝ} (r : Nat) (j : Fin vm) :
    ∑ l : Fin un, X r l * sigM 𝕜 un vm S l j = if j.1 < un then X r j * (S j : 𝕜) else 0 := by
  unfold sigM
  simp only [of_apply]
  split_ifs with hj
  · rw [Finset.sum_eq_single (⟨j.1, hj⟩ : Fin un)]
    · simp
    · intro l _ hl
      rw [if_neg (fun e => hl (Fin.ext e)), mul_zero]
    · simp
  · refine Finset.sum_eq_zero fun l _ => ?_
    rw [if_neg (by have := l.2; omega), mul_zero]

/-- Singular vectors of the leading block, extended by columns and rows of the identity. -/
theorem svd_embed {X Y : Nat → Nat → 𝕜} {S : Nat → ℝ} (hk : k = min m n) (hu : k ≤ un) (hu' : un ≤ m) (hv : k ≤ vm) (hv' : vm ≤ n)
    (hX : ∀ i j, i < m → j < un → ¬ (i < k ∧ j < k) → X i j = if i = j then 1 else 0)
    (hY : ∀ i j, i < vm → j < n → ¬ (i < k ∧ j < k) → Y i j = if i = j then 1 else 0) (r : Fin m) (c : Fin n) :
    (mat m un X * sigM 𝕜 un vm S * mat vm n Y) r c =
      if h : r.1 < k ∧ c.1 < k then (mat k k X * diagonal (fun i : Fin k => (S i : 𝕜)) * mat k k Y) ⟨r.1, h.1⟩ ⟨c.1, h.2⟩ else 0 := by
  have e : (mat m un X * sigM 𝕜 un vm S * mat vm n Y) r c = ∑ j ∈ range k, X r j * (S j : 𝕜) * Y j c := by
    rw [mul_apply]
    simp only [mul_apply, mat_apply, sig_mul]
    rw [← Finset.sum_range (f := fun j => (if j < un then X r j * (S j : 𝕜) else 0) * Y j c)]
    rw [← Finset.sum_subset (Finset.range_subset_range.mpr hv)]
    · refine Finset.sum_congr rfl fun j hj => ?_
      rw [if_pos (by have := Finset.mem_range.mp hj; omega)]
    · intro j hj hj'
      rw [Finset.mem_range] at hj hj'
      rw [if_neg (by omega), zero_mul]
  rw [e]
  split_ifs with h
  · rw [mul_apply, Finset.sum_range]
    refine Finset.sum_congr rfl fun j _ => ?_
    rw [mul_diagonal]
    rfl
  · refine Finset.sum_eq_zero fun j hj => ?_
    rw [Finset.mem_range] at hj
    by_cases hr : r.1 < k
    · rw [hY j c (by omega) c.2 (by omega), if_neg (by omega), mul_zero]
    · rw [hX r j r.2 (by omega) (by omega), if_neg (by omega), zero_mul, zero_mul]

theorem orth_embed {X : Nat → Nat → 𝕜} (hk : k ≤ m) (hu : k ≤ un) (hu' : un ≤ m)
    (hX : ∀ i j, i < m → j < un → ¬ (i < k ∧ j < k) → X i j = if i = j then 1 else 0)
    (h : mat k k X ∈ unitaryGroup (Fin k) 𝕜) : (mat m un X)ᴴ * mat m un X = 1 := by
  have h1 : (mat k k X)ᴴ * mat k k X = 1 := mem_unitaryGroup_iff'.mp h
  ext i j
  rw [mul_apply, one_apply]
  simp only [conjTranspose_apply, mat_apply]
  rw [← Finset.sum_range (f := fun l => star (X l i) * X l j)]
  have hi := i.2
  have hj := j.2
  by_cases hik : i.1 < k
  · rw [← Finset.sum_subset (Finset.range_subset_range.mpr hk)]
    · by_cases hjk : j.1 < k
      · have := congrFun (congrFun h1 ⟨i.1, hik⟩) ⟨j.1, hjk⟩
        rw [mul_apply, one_apply] at this
        simp only [conjTranspose_apply, mat_apply] at this
        rw [Finset.sum_range, this]
        exact if_congr (by rw [Fin.ext_iff, Fin.ext_iff]) rfl rfl
      · rw [if_neg (by rw [Fin.ext_iff]; omega)]
        refine Finset.sum_eq_zero fun l hl => ?_
        rw [Finset.mem_range] at hl
        rw [hX l j (by omega) hj (by omega), if_neg (by omega), mul_zero]
    · intro l hl hl'
      rw [Finset.mem_range] at hl hl'
      rw [hX l i hl hi (by omega), if_neg (by omega), star_zero, zero_mul]
  · rw [Finset.sum_eq_single i.1]
    · rw [hX i i (by omega) hi (by omega), if_pos rfl, star_one, one_mul, hX i j (by omega) hj (by omega)]
      exact if_congr (by rw [Fin.ext_iff]) rfl rfl
    · intro l hl hne
      rw [Finset.mem_range] at hl
      rw [hX l i hl hi (by omega), if_neg hne, star_zero, zero_mul]
    · intro hl
      exact absurd (Finset.mem_range.mpr (by omega)) hl

theorem orth_embed' {Y : Nat → Nat → 𝕜} (hk : k ≤ n) (hv : k ≤ vm) (hv' : vm ≤ n)
    (hY : ∀ i j, i < vm → j < n → ¬ (i < k ∧ j < k) → Y i j = if i = j then 1 else 0)
    (h : mat k k Y ∈ unitaryGroup (Fin k) 𝕜) : mat vm n Y * (mat vm n Y)ᴴ = 1 := by
  have e : ∀ a b, mat a b (fun i j => star (Y j i)) = (mat b a Y)ᴴ := fun a b => rfl
  have := orth_embed (X := fun i j => star (Y j i)) hk hv hv' (fun i j hi hj hij => by
    rw [hY j i hj hi (by omega)]
    by_cases h : i = j
    · rw [if_pos h, if_pos h.symm, star_one]
    · rw [if_neg h, if_neg (Ne.symm h), star_zero]) (by rw [e]; exact Unitary.star_mem h)
  rw [e, conjTranspose_conjTranspose] at this
  exact this

theorem basis_orth {n : Nat} (u : OrthonormalBasis (Fin n) ℝ (EuclideanSpace ℝ (Fin n))) :
    (of fun i c : Fin n => u i c) ∈ unitaryGroup (Fin n) ℝ := by
  rw [mem_unitaryGroup_iff]
  ext i j
  have h := orthonormal_iff_ite.mp u.orthonormal j i
  rw [EuclideanSpace.inner_eq_star_dotProduct] at h
  rw [mul_apply, one_apply]
  simp only [dotProduct, Pi.star_apply, star_trivial] at h
  simp only [star_apply, of_apply, star_trivial]
  rw [h]
  simp only [eq_comm]

/-- A real square matrix has a singular value decomposition. -/
theorem svd_exists {n : Nat} (M : Matrix (Fin n) (Fin n) ℝ) : ∃ U ∈ unitaryGroup (Fin n) ℝ, ∃ V ∈ unitaryGroup (Fin n) ℝ,
    M = U * diagonal (fun i => sval M i.1) * V := by
  set T := toEuclideanLin M with hT
  have hn : Module.finrank ℝ (EuclideanSpace ℝ (Fin n)) = n := finrank_euclideanSpace_fin
  set b := T.isSymmetric_adjoint_comp_self.eigenvectorBasis hn with hb
  have hin : ∀ i j, inner ℝ (T (b i)) (T (b j)) = if i = j then sval M i.1 ^ 2 else 0 := by
    intro i j
    rw [← LinearMap.adjoint_inner_right]
    have e : LinearMap.adjoint T (T (b j)) = (sval M j.1 ^ 2) • b j := by
      have := T.isSymmetric_adjoint_comp_self.apply_eigenvectorBasis hn j
      rw [← T.sq_singularValues_fin hn j] at this
      exact this
    rw [e, inner_smul_right, orthonormal_iff_ite.mp b.orthonormal]
    split_ifs with h
    · rw [h, mul_one]
    · rw [mul_zero]
  have ho : Orthonormal ℝ (Set.domRestrict {i : Fin n | sval M i.1 ≠ 0} fun i => (sval M i.1)⁻¹ • T (b i)) := by
    rw [orthonormal_iff_ite]
    rintro ⟨i, hi⟩ ⟨j, hj⟩
    simp only [Set.domRestrict_apply, inner_smul_left, inner_smul_right, hin, Subtype.mk.injEq]
    split_ifs with h
    · subst h
      have hi : sval M i.1 ≠ 0 := hi
      simp only [conj_trivial]
      field_simp
    · simp
  obtain ⟨u, hu⟩ := ho.exists_orthonormalBasis_extension_of_card_eq (by simp)
  have hTb : ∀ i, T (b i) = sval M i.1 • u i := by
    intro i
    by_cases h : sval M i.1 = 0
    · have := hin i i
      rw [if_pos rfl, h, zero_pow two_ne_zero, inner_self_eq_zero] at this
      rw [this, h, zero_smul]
    · rw [hu i h, smul_smul, mul_inv_cancel₀ h, one_smul]
  refine ⟨(of fun i c : Fin n => u i c)ᵀ, ?_, of fun i c : Fin n => b i c, basis_orth b, ?_⟩
  · have := Unitary.star_mem (basis_orth u)
    rw [star_eq_conjTranspose, conjTranspose_eq_transpose_of_trivial] at this
    exact this
  · have hV := mem_unitaryGroup_iff'.mp (basis_orth b)
    have e : M * star (of fun i c : Fin n => b i c) = (of fun i c : Fin n => u i c)ᵀ * diagonal (fun i => sval M i.1) := by
      ext r i
      rw [mul_diagonal, transpose_apply, of_apply, mul_apply]
      have := congrArg (fun x : EuclideanSpace ℝ (Fin n) => x r) (hTb i)
      simp only [PiLp.smul_apply, smul_eq_mul] at this
      rw [mul_comm, ← this]
      simp only [star_apply, of_apply, star_trivial]
      rfl
    rw [← e, Matrix.mul_assoc, hV, Matrix.mul_one]
/-! ### The starting vectors -/

/-- A loop of assignments. -/
noncomputable def putL {ι : Type} (addr : ι → Buf × Nat) (v : ι → 𝕜) (l : List ι) (mem : Buf × Nat → 𝕜) : Buf × Nat → 𝕜 :=
  l.foldl (fun s p => Function.update s (addr p) (v p)) mem

theorem putL_not {ι : Type} {addr : ι → Buf × Nat} {v : ι → 𝕜} {l : List ι} {mem : Buf × Nat → 𝕜} {x : Buf × Nat}
    (h : ∀ p ∈ l, addr p ≠ x) : putL addr v l mem x = mem x := by
  induction l generalizing mem with
  | nil => rfl
  | cons q l ih =>
    show putL addr v l (Function.update mem (addr q) (v q)) x = _
    rw [ih fun p hp => h p (List.mem_cons_of_mem _ hp), Function.update_of_ne (h q List.mem_cons_self).symm]

theorem putL_mem {ι : Type} {addr : ι → Buf × Nat} {v : ι → 𝕜} {l : List ι} {mem : Buf × Nat → 𝕜} {p : ι} (hp : p ∈ l)
    (h : ∀ q ∈ l, addr q = addr p → v q = v p) : putL addr v l mem (addr p) = v p := by
  induction l generalizing mem p with
  | nil => cases hp
  | cons q l ih =>
    show putL addr v l (Function.update mem (addr q) (v q)) (addr p) = _
    by_cases hl : ∃ p' ∈ l, addr p' = addr p
    · obtain ⟨p', hp', e⟩ := hl
      have e' := h p' (List.mem_cons_of_mem _ hp') e
      rw [← e, ← e']
      refine ih hp' fun q' hq' e2 => ?_
      rw [e', h q' (List.mem_cons_of_mem _ hq') (e2.trans e)]
    · rw [putL_not fun p' hp' e => hl ⟨p', hp', e⟩]
      rcases List.mem_cons.mp hp with rfl | hp
      · rw [Function.update_self]
      · exact absurd ⟨p, hp, rfl⟩ hl

/-- Iterations of `for (j = 0; j < k; j++) for (i = 0; i < k; i++)`. -/
def sqIdx (k : Nat) : List (Nat × Nat) := (List.range k).flatMap fun j => (List.range k).map fun i => (i, j)

theorem mem_sqIdx {k : Nat} {p : Nat × Nat} : p ∈ sqIdx k ↔ p.1 < k ∧ p.2 < k := by
  obtain ⟨i, j⟩ := p
  unfold sqIdx
  simp only [List.mem_flatMap, List.mem_map, List.mem_range, Prod.mk.injEq]
  constructor
  · rintro ⟨j', hj, i', hi, rfl, rfl⟩; exact ⟨hi, hj⟩
  · rintro ⟨hi, hj⟩; exact ⟨j, hj, i, hi, rfl, rfl⟩

/-- The identity blocks of `U` and `VT` (compute/zgesdd.c:601-615): both arrays are set to zero, then ones are put onto the diagonal
below and to the right of the part that `dbdsdc` computes, if all vectors are requested. -/
noncomputable def sdEye (allU allV : Bool) (m n un ldu ldvt : Nat) (mem : Buf × Nat → 𝕜) : Buf × Nat → 𝕜 :=
  let z : Buf × Nat → 𝕜 := fun l => if l.1 = .usr 3 ∧ l.2 < ldu * un ∨ l.1 = .usr 4 ∧ l.2 < ldvt * n then 0 else mem l
  let s := if allU then putL (fun i => (.usr 3, i + ldu * i)) (fun _ => 1) (List.range' n (m - n)) z else z
  if allV then putL (fun i => (.usr 4, i + ldvt * i)) (fun _ => 1) (List.range' m (n - m)) s else s

/-- The starting vectors (compute/zgesdd.c:601-645): the identity blocks, then the real vectors `RU` and `RVT` that `dbdsdc` has
returned are copied.  In real precision `dbdsdc` writes to `pU` and `pVT` itself (compute/zgesdd.c:646-651). -/
noncomputable def sdInit (allU allV : Bool) (m n un ldu ldvt : Nat) (RU RVT : Nat → ℝ) (mem : Buf × Nat → 𝕜) : Buf × Nat → 𝕜 :=
  putL (fun p : Nat × Nat => (.usr 4, p.1 + ldvt * p.2)) (fun p => (RVT (p.1 + min m n * p.2) : 𝕜)) (sqIdx (min m n))
    (putL (fun p : Nat × Nat => (.usr 3, p.1 + ldu * p.2)) (fun p => (RU (p.1 + min m n * p.2) : 𝕜)) (sqIdx (min m n))
      (sdEye allU allV m n un ldu ldvt mem))

theorem cm_inj {ld i j i' j' : Nat} (hi : i < ld) (hi' : i' < ld) (e : i + ld * j = i' + ld * j') : i = i' ∧ j = j' := by
  have h1 := congrArg (· % ld) e
  have h2 := congrArg (· / ld) e
  simp only [Nat.add_mul_mod_self_left, Nat.mod_eq_of_lt hi, Nat.mod_eq_of_lt hi'] at h1
  simp only [Nat.add_mul_div_left _ _ (by omega : 0 < ld), Nat.div_eq_of_lt hi, Nat.div_eq_of_lt hi'] at h2
  omega

theorem cm_lt {ld k i j : Nat} (hi : i < ld) (hj : j < k) : i + ld * j < ld * k := by
  calc i + ld * j < ld + ld * j := by omega
    _ = ld * (j + 1) := by ring
    _ ≤ ld * k := Nat.mul_le_mul_left _ hj

theorem sdInit_frame {allU allV : Bool} {ldu ldvt : Nat} {RU RVT : Nat → ℝ} {mem : Buf × Nat → 𝕜} {a : Buf} (h3 : a ≠ .usr 3)
    (h4 : a ≠ .usr 4) (x : Nat) : sdInit allU allV m n un ldu ldvt RU RVT mem (a, x) = mem (a, x) := by
  unfold sdInit sdEye
  rw [putL_not fun p _ e => h4 (congrArg Prod.fst e).symm, putL_not fun p _ e => h3 (congrArg Prod.fst e).symm]
  cases allU <;> cases allV <;> simp only [Bool.false_eq_true, if_true, if_false]
  · rw [if_neg (by rintro (h | h); exacts [h3 h.1, h4 h.1])]
  · rw [putL_not fun p _ e => h4 (congrArg Prod.fst e).symm, if_neg (by rintro (h | h); exacts [h3 h.1, h4 h.1])]
  · rw [putL_not fun p _ e => h3 (congrArg Prod.fst e).symm, if_neg (by rintro (h | h); exacts [h3 h.1, h4 h.1])]
  · rw [putL_not fun p _ e => h4 (congrArg Prod.fst e).symm, putL_not fun p _ e => h3 (congrArg Prod.fst e).symm,
      if_neg (by rintro (h | h); exacts [h3 h.1, h4 h.1])]

theorem sdInit_U {allU allV : Bool} {ldu ldvt : Nat} {RU RVT : Nat → ℝ} {mem : Buf × Nat → 𝕜} (hldu : m ≤ ldu)
    (hun : un = if allU then m else min m n) {i j : Nat} (hi : i < ldu) (hj : j < un) :
    sdInit allU allV m n un ldu ldvt RU RVT mem (.usr 3, i + ldu * j) =
      if i < min m n ∧ j < min m n then (RU (i + min m n * j) : 𝕜) else if i = j then 1 else 0 := by
  unfold sdInit
  rw [putL_not fun p _ e => by cases congrArg Prod.fst e]
  split_ifs with hk hij
  · exact putL_mem (addr := fun p : Nat × Nat => (Buf.usr 3, p.1 + ldu * p.2)) (p := (i, j)) (mem_sqIdx.mpr hk) fun q hq e => by
      obtain ⟨h1, h2⟩ := cm_inj (by have := (mem_sqIdx.mp hq).1; omega) hi (congrArg Prod.snd e)
      rw [h1, h2]
  all_goals
    rw [putL_not fun p hp e => by
      obtain ⟨h1, h2⟩ := cm_inj (by have := (mem_sqIdx.mp hp).1; omega) hi (congrArg Prod.snd e)
      exact hk (h1 ▸ h2 ▸ mem_sqIdx.mp hp)]
    unfold sdEye
    have e4 : ∀ s : Buf × Nat → 𝕜, (if allV then putL (fun i => (.usr 4, i + ldvt * i)) (fun _ => 1) (List.range' m (n - m)) s else s)
        (.usr 3, i + ldu * j) = s (.usr 3, i + ldu * j) := fun s => by
      split_ifs
      · rw [putL_not fun p _ e => by cases congrArg Prod.fst e]
      · rfl
    simp only [e4]
  · subst hij
    have hU : allU = true := by
      by_contra h
      rw [if_neg h] at hun
      omega
    rw [if_pos hU] at hun ⊢
    exact putL_mem (addr := fun i => (Buf.usr 3, i + ldu * i)) (p := i) (List.mem_range'_1.mpr (by omega)) fun q hq e => rfl
  · have hz : ∀ s : Buf × Nat → 𝕜, (if allU then putL (fun i => (.usr 3, i + ldu * i)) (fun _ => 1) (List.range' n (m - n)) s else s)
        (.usr 3, i + ldu * j) = s (.usr 3, i + ldu * j) := fun s => by
      split_ifs
      · rw [putL_not fun p hp e => by
          obtain ⟨h1, h2⟩ := cm_inj (by have := List.mem_range'_1.mp hp; omega) hi (congrArg Prod.snd e)
          exact hij (h1 ▸ h2)]
      · rfl
    rw [hz, if_pos (Or.inl ⟨rfl, cm_lt hi hj⟩)]

theorem sdInit_V {allU allV : Bool} {ldu ldvt : Nat} {RU RVT : Nat → ℝ} {mem : Buf × Nat → 𝕜} (hldvt : vm ≤ ldvt)
    (hvm : vm = if allV then n else min m n) {i j : Nat} (hi : i < ldvt) (hj : j < n) :
    sdInit allU allV m n un ldu ldvt RU RVT mem (.usr 4, i + ldvt * j) =
      if i < min m n ∧ j < min m n then (RVT (i + min m n * j) : 𝕜) else if i = j ∧ i < vm then 1 else 0 := by
  have hle : min m n ≤ vm := by rw [hvm]; split_ifs <;> omega
  unfold sdInit
  split_ifs with hk hij
  · exact putL_mem (addr := fun p : Nat × Nat => (Buf.usr 4, p.1 + ldvt * p.2)) (p := (i, j)) (mem_sqIdx.mpr hk) fun q hq e => by
      obtain ⟨h1, h2⟩ := cm_inj (by have := (mem_sqIdx.mp hq).1; omega) hi (congrArg Prod.snd e)
      rw [h1, h2]
  all_goals
    rw [putL_not fun p hp e => by
      obtain ⟨h1, h2⟩ := cm_inj (by have := (mem_sqIdx.mp hp).1; omega) hi (congrArg Prod.snd e)
      exact hk (h1 ▸ h2 ▸ mem_sqIdx.mp hp), putL_not fun p _ e => by cases congrArg Prod.fst e]
    unfold sdEye
  · obtain ⟨rfl, hiv⟩ := hij
    have hV : allV = true := by
      by_contra h
      rw [if_neg h] at hvm
      omega
    rw [if_pos hV] at hvm
    simp only [hV, if_true]
    exact putL_mem (addr := fun i => (Buf.usr 4, i + ldvt * i)) (p := i) (List.mem_range'_1.mpr (by omega)) fun q hq e => rfl
  · have hz : ∀ s : Buf × Nat → 𝕜, (if allV then putL (fun i => (.usr 4, i + ldvt * i)) (fun _ => 1) (List.range' m (n - m)) s else s)
        (.usr 4, i + ldvt * j) = s (.usr 4, i + ldvt * j) := fun s => by
      split_ifs with hV
      · rw [if_pos hV] at hvm
        rw [putL_not fun p hp e => by
          have hp' := List.mem_range'_1.mp hp
          obtain ⟨h1, h2⟩ := cm_inj (by omega) hi (congrArg Prod.snd e)
          exact hij ⟨h1 ▸ h2, by omega⟩]
      · rfl
    have hz' : ∀ s : Buf × Nat → 𝕜, (if allU then putL (fun i => (.usr 3, i + ldu * i)) (fun _ => 1) (List.range' n (m - n)) s else s)
        (.usr 4, i + ldvt * j) = s (.usr 4, i + ldvt * j) := fun s => by
      split_ifs
      · rw [putL_not fun p _ e => by cases congrArg Prod.fst e]
      · rfl
    simp only [hz, hz']
    rw [if_pos (Or.inr ⟨trivial, cm_lt hi hj⟩)]

/-- A square matrix stored by columns. -/
def colM (k : Nat) (R : Nat → ℝ) : Matrix (Fin k) (Fin k) ℝ := of fun i j => R (i.1 + k * j.1)

/-- A call of `plasma_zgesdd` with vectors and with valid arguments, `2 ≤ nb ≤ min(m,n)`, all allocations successful
(compute/zgesdd.c:221-246, 404-770): memory `mem` becomes `memF` and `S` is returned.
* `mem1`: after the reduction to band form.
* `cm`, `cm'`: memory of the bulge chasing before and after.
* `RU`, `RVT`: the vectors that `LAPACKE_dbdsdc` returns.  It is not modelled: by contract the bidiagonal matrix is `RU·S·RVT` with
  orthogonal `RU` and `RVT`, and `S` are its singular values in decreasing order (compute/zgesdd.c:617-632).
* The starting vectors are set (compute/zgesdd.c:600-645).
* `mem3`: the reflectors of the bulge chasing have been applied to `U` (compute/zgesdd.c:661-678).
* `mem4`: the reflectors of the reduction have been applied to `U` (compute/zgesdd.c:680-710).
* `mem5`, `mem6`: the same for `VT` (compute/zgesdd.c:716-768).
* `memF`: `A` has been translated back (compute/zgesdd.c:234-239). -/
structure SvdVecRun (K : QrKern 𝕜) (ib nb V m n lda un ldu vm ldvt : Nat) (allU allV : Bool) (mem memF : Buf × Nat → 𝕜) (S : Nat → ℝ) where
  mem1 : Buf × Nat → 𝕜
  reduce : Exec (sdEnv ib nb m n lda) (sdReduce K ib nb m n) (sdStart nb m n mem) mem1
  cores : Nat
  cm : CM × Nat → 𝕜
  cm' : CM × Nat → 𝕜
  band : ∀ x, x < (3 * nb + 1) * min m n → cm (.a, x) = mem1 (.usr 2, x)
  vq : ∀ x, cm (.q, x) = 0
  vp : ∀ x, cm (.p, x) = 0
  chase : ChaseExecV (sdUp m n) (min m n) nb V cores cm cm'
  RU : Nat → ℝ
  RVT : Nat → ℝ
  uh : colM (min m n) RU ∈ unitaryGroup (Fin (min m n)) ℝ
  vh : colM (min m n) RVT ∈ unitaryGroup (Fin (min m n)) ℝ
  bdsdc : bidiag ℝ (sdUp m n) (min m n) (brdD (sdUp m n) nb cm') (brdE (sdUp m n) nb cm') =
    colM (min m n) RU * diagonal (fun i => S i.1) * colM (min m n) RVT
  svals : ∀ i, i < min m n → S i = sval (bidiag ℝ (sdUp m n) (min m n) (brdD (sdUp m n) nb cm') (brdE (sdUp m n) nb cm')) i
  thr1 : Nat
  thr2 : Nat
  thr3 : Nat
  thr4 : Nat
  thr1_pos : 0 < thr1
  thr2_pos : 0 < thr2
  thr3_pos : 0 < thr3
  thr4_pos : 0 < thr4
  T0 : Nat → 𝕜
  T1 : Nat → 𝕜
  T2 : Nat → 𝕜
  T3 : Nat → 𝕜
  EU : Nat → Nat → 𝕜
  EU' : Nat → Nat → 𝕜
  EV : Nat → Nat → 𝕜
  EV' : Nat → Nat → 𝕜
  mem3 : Buf × Nat → 𝕜
  larftQ : Blg.LarftExec (min m n) nb V thr1 (fun x => cm' (.q, x)) (fun x => cm' (.tq, x)) T0 T1
  unmQ : Blg.UnmExec true false (min m n) nb V (min m n) thr2 (fun x => cm' (.q, x)) T1 EU EU'
  inU : ∀ i j, i < ldu → j < un → EU i j = sdInit allU allV m n un ldu ldvt RU RVT mem1 (.usr 3, i + ldu * j)
  outU : ∀ i j, i < ldu → j < un → mem3 (.usr 3, i + ldu * j) = EU' i j
  frameU : ∀ a x, a ≠ .usr 3 ∨ ldu * un ≤ x → mem3 (a, x) = sdInit allU allV m n un ldu ldvt RU RVT mem1 (a, x)
  mem4 : Buf × Nat → 𝕜
  applyU : Exec (svEnv ib nb m n un ldu vm ldvt) (sdApplyU ib nb m n un vm) mem3 mem4
  mem5 : Buf × Nat → 𝕜
  larftP : Blg.LarftExec (min m n) nb V thr3 (fun x => cm' (.p, x)) (fun x => cm' (.tp, x)) T2 T3
  unmP : Blg.UnmExec false true (min m n) nb V (min m n) thr4 (fun x => cm' (.p, x)) T3 EV EV'
  inV : ∀ i j, i < ldvt → j < n → EV i j = mem4 (.usr 4, i + ldvt * j)
  outV : ∀ i j, i < ldvt → j < n → mem5 (.usr 4, i + ldvt * j) = EV' i j
  frameV : ∀ a x, a ≠ .usr 4 ∨ ldvt * n ≤ x → mem5 (a, x) = mem4 (a, x)
  mem6 : Buf × Nat → 𝕜
  applyV : Exec (svEnv ib nb m n un ldu vm ldvt) (sdApplyV ib nb m n un vm) mem5 mem6
  back : Exec (sdEnv ib nb m n lda) (sdBack 𝕜 nb m n) mem6 memF

variable {ib nb V lda ldu ldvt : Nat} {K : QrKern 𝕜} {mem memF : Buf × Nat → 𝕜} {S : Nat → ℝ} {allU allV : Bool}

/-- The band array holds what the bulge chasing expects. -/
theorem SvdVecRun.chaseIn (hK : QrSpec K) (hnb : 0 < nb) (hib : 0 < ib) (hlda : m ≤ lda)
    (h : SvdVecRun K ib nb V m n lda un ldu vm ldvt allU allV mem memF S) : ChaseInV (sdUp m n) (min m n) nb h.cm := by
  refine ⟨fun r c hr hc hw hb => ?_, h.vq, h.vp⟩
  rw [h.band _ (addr_lt hr hc hw), (sdReduce_spec hK hnb hib hlda h.reduce).2.1]
  · unfold sdStart
    rw [if_pos ⟨rfl, addr_lt hr hc hw⟩]
  · intro r' c' hr' hc' hb' e
    have hv' := valid_band (n := min m n) (band_iff.mp hb') hr' hc'
    have := chase_inj (up := sdUp m n) (n := min m n) (nb := nb) CM.a r c CM.a r' c' ⟨hr, hc, hw⟩ hv' (congrArg (Prod.mk CM.a) e)
    obtain ⟨-, rfl, rfl⟩ := this
    exact hb (band_iff.mp hb')

theorem SvdVecRun.band_el (h : SvdVecRun K ib nb V m n lda un ldu vm ldvt allU allV mem memF S) (r : Fin m) (c : Fin n) :
    bandMat h.mem1 nb m n r c = if hr : r.1 < min m n ∧ c.1 < min m n then
      bandOf (sdUp m n) (min m n) nb h.cm ⟨r.1, hr.1⟩ ⟨c.1, hr.2⟩ else 0 := by
  unfold bandMat
  rw [mat_apply]
  by_cases hB : BandP (sdUp m n) nb r c
  · have hlt : r.1 < min m n ∧ c.1 < min m n := by
      have hr := r.2
      have hc := c.2
      unfold BandP UBand LBand sdUp at hB
      by_cases h : n ≤ m <;> simp [h] at hB <;> omega
    rw [mask_pos hB, dif_pos hlt]
    unfold bandOf
    rw [of_apply, if_pos (band_iff.mp hB)]
    exact (h.band _ (addr_lt hlt.1 hlt.2 (valid_band (n := min m n) (band_iff.mp hB) hlt.1 hlt.2).2.2)).symm
  · rw [mask_neg hB]
    split_ifs with hlt
    · unfold bandOf
      rw [of_apply, if_neg fun h => hB (band_iff.mpr h)]
    · rfl

theorem map_unitary {k : Nat} {X : Matrix (Fin k) (Fin k) ℝ} (h : X ∈ unitaryGroup (Fin k) ℝ) :
    X.map (RCLike.ofReal : ℝ → 𝕜) ∈ unitaryGroup (Fin k) 𝕜 := by
  rw [mem_unitaryGroup_iff] at h ⊢
  have e : star (X.map (RCLike.ofReal : ℝ → 𝕜)) = (star X).map (RCLike.ofReal : ℝ → 𝕜) := by
    ext i j
    simp [star_eq_conjTranspose]
  rw [e]
  have := congrArg (fun Y : Matrix (Fin k) (Fin k) ℝ => Y.map (RCLike.ofReal : ℝ → 𝕜)) h
  ext i j
  have := congrFun (congrFun this i) j
  simp only [map_apply, mul_apply, one_apply, RCLike.ofReal_sum, RCLike.ofReal_mul] at this ⊢
  rw [this]
  split_ifs <;> simp

theorem sdBack_frame (hnb : 0 < nb) (hib : 0 < ib) (hlda : m ≤ lda) {mem mem' : Buf × Nat → 𝕜}
    (h : Exec (sdEnv ib nb m n lda) (sdBack 𝕜 nb m n) mem mem') {a : Buf} (ha : a ≠ .usr 0) (x : Nat) : mem' (a, x) = mem (a, x) := by
  refine Exec.frame_buf (sdEnv_wf hnb hib hlda) (sdBack_good hnb) h (Writes.mono (copyK_writes (stSq_none ..)) ?_) x
  rintro t ⟨m, n, rfl, -⟩ e
  exact ha e.symm

theorem SvdVecRun.sval_band (h : SvdVecRun K ib nb V m n lda un ldu vm ldvt allU allV mem memF S) {i : Nat} (hi : i < min m n) :
    sval (bandMat h.mem1 nb m n) i = sval (bandOf (sdUp m n) (min m n) nb h.cm) i := by
  have hel := h.band_el
  generalize hk : min m n = k at hel hi ⊢
  by_cases hmn : n ≤ m
  · obtain rfl : k = n := by omega
    refine sval_rows hmn (fun r c => ?_) hi
    rw [hel]
    by_cases hr : r.1 < k
    · rw [dif_pos ⟨hr, c.2⟩, dif_pos hr]
    · rw [dif_neg (fun h => hr h.1), dif_neg hr]
  · obtain rfl : k = m := by omega
    refine sval_cols le_rfl (by omega) (fun r c => ?_) hi
    rw [hel]
    by_cases hc : c.1 < k
    · rw [dif_pos ⟨r.2, hc⟩, dif_pos hc]
    · rw [dif_neg (fun h => hc h.2), dif_neg hc]

/-- **C91.** Singular value decomposition: every execution of `plasma_zgesdd` with vectors, by any number of threads, returns `U`, `S` and
`VT` with `A = U·Σ·VT`.  `U` has `m` (all vectors) or `min(m,n)` (some vectors) orthonormal columns, `VT` has `n` or `min(m,n)` orthonormal
rows, and `S` holds the singular values of `A` in decreasing order. -/
theorem C91_gesdd (hR : KReal K) (hK : QrSpec K) (hnb : 2 ≤ nb) (hib : 0 < ib) (hV : 0 < V) (hmin : nb ≤ min m n) (hlda : m ≤ lda)
    (hldu : m ≤ ldu) (hldvt : vm ≤ ldvt) (hun : un = if allU then m else min m n)
    (hvm : vm = if allV then n else min m n)
    (h : SvdVecRun K ib nb V m n lda un ldu vm ldvt allU allV mem memF S) :
    of (fun (r : Fin m) (c : Fin n) => mem (.usr 0, r.1 + c.1 * lda)) =
      of (fun (r : Fin m) (c : Fin un) => memF (.usr 3, r.1 + c.1 * ldu)) *
      of (fun (i : Fin un) (j : Fin vm) => if i.1 = j.1 then (S i.1 : 𝕜) else 0) *
      of (fun (r : Fin vm) (c : Fin n) => memF (.usr 4, r.1 + c.1 * ldvt)) ∧
    (of fun (r : Fin m) (c : Fin un) => memF (.usr 3, r.1 + c.1 * ldu))ᴴ *
      of (fun (r : Fin m) (c : Fin un) => memF (.usr 3, r.1 + c.1 * ldu)) = 1 ∧
    of (fun (r : Fin vm) (c : Fin n) => memF (.usr 4, r.1 + c.1 * ldvt)) *
      (of fun (r : Fin vm) (c : Fin n) => memF (.usr 4, r.1 + c.1 * ldvt))ᴴ = 1 ∧
    (∀ i, i < min m n →
      S i = (toEuclideanLin (of fun (r : Fin m) (c : Fin n) => mem (.usr 0, r.1 + c.1 * lda))).singularValues i) ∧
    ∀ i j, i ≤ j → j < min m n → 0 ≤ S j ∧ S j ≤ S i := by
  have hun' : un = min m n ∨ un = m := by rw [hun]; split_ifs <;> simp
  have hvm' : vm = min m n ∨ vm = n := by rw [hvm]; split_ifs <;> simp
  have hnb0 : 0 < nb := by omega
  have hm : 0 < m := by omega
  have hn : 0 < n := by omega
  have hin := h.chaseIn hK hnb0 hib hlda
  have hw : if sdUp m n = true then (0:Nat) ≤ 0 + 2 * nb ∧ 0 ≤ 0 + nb else 0 ≤ 0 + 2 * nb ∧ 0 ≤ 0 + nb := by
    cases sdUp m n <;> simp
  have h00 := sdReduce_re0 hR hK hnb0 hib hlda hm hn h.reduce
  rw [← h.band _ (addr_lt (by omega) (by omega) hw)] at h00
  obtain ⟨s2, ⟨hQ, hP⟩, eA, hS⟩ := sdReduce_vec hK hnb0 hib hlda h.reduce
  have f4 := fun {a : Buf} (e : a ≠ .til 3) (e' : a ≠ .usr 3) x => sdApplyU_frame hnb0 hib hmin hldu hldvt h.applyU e e' x
  have f6 := fun {a : Buf} (e : a ≠ .til 4) (e' : a ≠ .usr 4) x => sdApplyV_frame hnb0 hib hmin hldu hldvt h.applyV e e' x
  -- the vectors that enter the two applications
  have iU : ∀ i j, i < m → j < un → h.EU i j = if i < min m n ∧ j < min m n then (h.RU (i + min m n * j) : 𝕜)
      else if i = j then 1 else 0 := fun i j hi hj => (h.inU i j (by omega) hj).trans (sdInit_U hldu hun (by omega) hj)
  have iV : ∀ i j, i < vm → j < n → h.EV i j = if i < min m n ∧ j < min m n then (h.RVT (i + min m n * j) : 𝕜)
      else if i = j then 1 else 0 := fun i j hi hj => by
    rw [h.inV i j (by omega) hj, f4 (by simp) (by simp), h.frameU _ _ (by simp), sdInit_V hldvt hvm (by omega) hj]
    simp only [hi, and_true]
  have mU : mat (min m n) (min m n) h.EU = (colM (min m n) h.RU).map (RCLike.ofReal : ℝ → 𝕜) := by
    ext r c
    rw [mat_apply, iU r c (by omega) (by omega), if_pos ⟨r.2, c.2⟩]
    rfl
  have mV : mat (min m n) (min m n) h.EV = (colM (min m n) h.RVT).map (RCLike.ofReal : ℝ → 𝕜) := by
    ext r c
    rw [mat_apply, iV r c (by omega) (by omega), if_pos ⟨r.2, c.2⟩]
    rfl
  have hsvd : bidiag 𝕜 (sdUp m n) (min m n) (brdD (sdUp m n) nb h.cm') (brdE (sdUp m n) nb h.cm') =
      mat (min m n) (min m n) h.EU * diagonal (fun i : Fin (min m n) => (S i : 𝕜)) * mat (min m n) (min m n) h.EV := by
    rw [bidiag_map, h.bdsdc, mU, mV]
    ext i j
    rw [map_apply, mul_apply, mul_apply, RCLike.ofReal_sum]
    refine Finset.sum_congr rfl fun x _ => ?_
    rw [mul_diagonal, mul_diagonal, RCLike.ofReal_mul, RCLike.ofReal_mul, map_apply, map_apply]
  obtain ⟨eB, uU, uV⟩ := C89_svd (by omega) hnb hV hin h00 h.chase hsvd h.thr1_pos h.thr2_pos h.thr3_pos h.thr4_pos
    h.larftQ h.unmQ h.larftP h.unmP
  obtain ⟨-, -, -, -, -, sq, sp⟩ := C89_factors (by omega) hnb hV hin h.chase
  have hX : ∀ i j, i < m → j < un → ¬ (i < min m n ∧ j < min m n) → h.EU' i j = if i = j then 1 else 0 := by
    have k := (C87_left hnb hV sq h.thr1_pos h.thr2_pos h.larftQ h.unmQ).2
    intro i j hi hj hij
    rw [k i j (by omega), iU i j hi hj, if_neg hij]
  have hY : ∀ i j, i < vm → j < n → ¬ (i < min m n ∧ j < min m n) → h.EV' i j = if i = j then 1 else 0 := by
    have k := (C87_right hnb hV sp h.thr3_pos h.thr4_pos h.larftP h.unmP).2
    intro i j hi hj hij
    rw [k i j (by omega), iV i j hi hj, if_neg hij]
  -- the two applications
  have e3 : uArr h.mem3 3 ldu m un = mat m un h.EU' := by
    ext r c
    show h.mem3 (.usr 3, r.1 + c.1 * ldu) = _
    rw [Nat.mul_comm, h.outU r c (by omega) c.2]; rfl
  have e5 : uArr h.mem5 4 ldvt vm n = mat vm n h.EV' := by
    ext r c
    show h.mem5 (.usr 4, r.1 + c.1 * ldvt) = _
    rw [Nat.mul_comm, h.outV r c (by omega) c.2]; rfl
  have eU : uArr memF 3 ldu m un = sdQ1 ib nb m n s2 * mat m un h.EU' := by
    rw [← e3, ← sdApplyU_spec hnb0 hib hmin hldu hldvt hS (fun x => (h.frameU _ x (by simp)).trans (sdInit_frame (by simp) (by simp) x))
      (fun x => (h.frameU _ x (by simp)).trans (sdInit_frame (by simp) (by simp) x)) h.applyU]
    ext r c
    show memF _ = h.mem4 _
    rw [sdBack_frame hnb0 hib hlda h.back (by simp), f6 (by simp) (by simp), h.frameV _ _ (by simp)]
  have eV : uArr memF 4 ldvt vm n = mat vm n h.EV' * sdP1 ib nb m n s2 := by
    rw [← e5, ← sdApplyV_spec hnb0 hib hmin hldu hldvt hS
      (fun x => by rw [h.frameV _ x (by simp), f4 (by simp) (by simp), h.frameU _ x (by simp), sdInit_frame (by simp) (by simp)])
      (fun x => by rw [h.frameV _ x (by simp), f4 (by simp) (by simp), h.frameU _ x (by simp), sdInit_frame (by simp) (by simp)]) h.applyV]
    ext r c
    show memF _ = h.mem6 _
    rw [sdBack_frame hnb0 hib hlda h.back (by simp)]
  have eM : bandMat h.mem1 nb m n = mat m un h.EU' * sigM 𝕜 un vm S * mat vm n h.EV' := by
    ext r c
    rw [svd_embed (k := min m n) rfl (by omega) (by omega) (by omega) (by omega) hX hY, h.band_el]
    simp only [eB]
  have e0 : uArr mem 0 lda m n = uArr (sdStart nb m n mem) 0 lda m n := by
    ext r c
    show mem (.usr 0, r.1 + c.1 * lda) = sdStart nb m n mem (.usr 0, r.1 + c.1 * lda)
    unfold sdStart
    rw [if_neg (by simp)]
  have oU := orth_embed (m := m) (un := un) (by omega) (by omega) (by omega) hX (uU (mU ▸ map_unitary h.uh))
  have oV := orth_embed' (n := n) (vm := vm) (by omega) (by omega) (by omega) hY (uV (mV ▸ map_unitary h.vh))
  have es : ∀ i, i < min m n → sval (uArr mem 0 lda m n) i = S i := by
    intro i hi
    rw [e0, sval_ueq ⟨_, hQ, _, hP, eA⟩ (by omega), h.sval_band hi, h.svals i hi]
    have u1 : UEq (bandOf (sdUp m n) (min m n) nb h.cm) (diagonal fun i : Fin (min m n) => (S i : 𝕜)) :=
      ⟨_, uU (mU ▸ map_unitary h.uh), _, uV (mV ▸ map_unitary h.vh), eB⟩
    have u2 : UEq (bidiag 𝕜 (sdUp m n) (min m n) (brdD (sdUp m n) nb h.cm') (brdE (sdUp m n) nb h.cm'))
        (diagonal fun i : Fin (min m n) => (S i : 𝕜)) := ⟨_, mU ▸ map_unitary h.uh, _, mV ▸ map_unitary h.vh, hsvd⟩
    rw [sval_ueq u1 hi, ← sval_ueq u2 hi, bidiag_map, sval_real _ hi]
  refine ⟨?_, ?_, ?_, fun i hi => (es i hi).symm, fun i j hij hj => ?_⟩
  rotate_left 3
  · rw [← es j hj, ← es i (by omega)]
    exact ⟨sval_nonneg _ _, sval_anti _ hij⟩
  all_goals rw [← uArr]
  · rw [← uArr, ← uArr, ← sigM, e0, eA, eU, eV, eM]
    simp only [Matrix.mul_assoc]
  · rw [eU]
    have : (sdQ1 ib nb m n s2)ᴴ * sdQ1 ib nb m n s2 = 1 := mem_unitaryGroup_iff'.mp hQ
    rw [conjTranspose_mul, Matrix.mul_assoc, ← Matrix.mul_assoc (sdQ1 ib nb m n s2)ᴴ, this, Matrix.one_mul, oU]
  · rw [eV]
    have : sdP1 ib nb m n s2 * (sdP1 ib nb m n s2)ᴴ = 1 := mem_unitaryGroup_iff.mp hP
    rw [conjTranspose_mul, Matrix.mul_assoc, ← Matrix.mul_assoc (sdP1 ib nb m n s2), this, Matrix.one_mul, oV]

/-- **C92, refuted.** "Only the elements of `U` and `VT` are written": the rows of the arrays below `U` and `VT`, between the number of
rows and the leading dimension, are set to zero by every call with vectors (`memset` of `ldu*Un` and `ldvt*n` elements). -/
theorem C92_padding_cleared (hK : QrSpec K) (hnb : 2 ≤ nb) (hib : 0 < ib) (hV : 0 < V) (hmin : nb ≤ min m n) (hlda : m ≤ lda)
    (hldu : m ≤ ldu) (hldvt : vm ≤ ldvt) (hun : un = if allU then m else min m n) (hvm : vm = if allV then n else min m n)
    (h : SvdVecRun K ib nb V m n lda un ldu vm ldvt allU allV mem memF S) :
    (∀ i j, m ≤ i → i < ldu → j < un → memF (.usr 3, i + j * ldu) = 0) ∧
    ∀ i j, vm ≤ i → i < ldvt → j < n → memF (.usr 4, i + j * ldvt) = 0 := by
  have hun' : un = min m n ∨ un = m := by rw [hun]; split_ifs <;> simp
  have hvm' : vm = min m n ∨ vm = n := by rw [hvm]; split_ifs <;> simp
  have hnb0 : 0 < nb := by omega
  have hin := h.chaseIn hK hnb0 hib hlda
  obtain ⟨-, -, -, -, -, sq, sp⟩ := C89_factors (by omega) hnb hV hin h.chase
  have f4 := fun {a : Buf} (e : a ≠ .til 3) (e' : a ≠ .usr 3) x => sdApplyU_frame hnb0 hib hmin hldu hldvt h.applyU e e' x
  have f6 := fun {a : Buf} (e : a ≠ .til 4) (e' : a ≠ .usr 4) x => sdApplyV_frame hnb0 hib hmin hldu hldvt h.applyV e e' x
  have kU := (C87_left hnb hV sq h.thr1_pos h.thr2_pos h.larftQ h.unmQ).2
  have kV := (C87_right hnb hV sp h.thr3_pos h.thr4_pos h.larftP h.unmP)
  refine ⟨fun i j hi hi' hj => ?_, fun i j hi hi' hj => ?_⟩
  · rw [sdBack_frame hnb0 hib hlda h.back (by simp), f6 (by simp) (by simp), h.frameV _ _ (by simp),
      Exec.frame_pad (svEnv_wf hnb0 hib hldu hldvt) (sdApplyU_good hnb0 hib hmin) h.applyU (a := .usr 3) rfl _ ?_,
      Nat.mul_comm, h.outU i j hi' hj, kU i j (by omega), h.inU i j hi' hj, sdInit_U hldu hun hi' hj,
      if_neg (by omega), if_neg (by omega)]
    intro i' j' h1 h2 e
    have h1 : i' < m := h1
    have e : i + j * ldu = i' + j' * ldu := e
    rw [Nat.mul_comm, Nat.mul_comm j'] at e
    have := cm_inj hi' (by omega) e
    omega
  · rw [sdBack_frame hnb0 hib hlda h.back (by simp),
      Exec.frame_pad (svEnv_wf hnb0 hib hldu hldvt) (sdApplyV_good hnb0 hib hmin) h.applyV (a := .usr 4) rfl _ ?_,
      Nat.mul_comm, h.outV i j hi' hj, kV.2 i j (by omega), h.inV i j hi' hj, f4 (by simp) (by simp), h.frameU _ _ (by simp),
      sdInit_V hldvt hvm hi' hj, if_neg (by omega), if_neg (by omega)]
    intro i' j' h1 h2 e
    have h1 : i' < vm := h1
    have e : i + j * ldvt = i' + j' * ldvt := e
    rw [Nat.mul_comm, Nat.mul_comm j'] at e
    have := cm_inj hi' (by omega) e
    omega

theorem sdInit_outU {ldu ldvt : Nat} {RU RVT : Nat → ℝ} {mem : Buf × Nat → 𝕜} (hldu : m ≤ ldu)
    (hun : un = if allU then m else min m n) {x : Nat} (hx : ldu * un ≤ x) :
    sdInit allU allV m n un ldu ldvt RU RVT mem (.usr 3, x) = mem (.usr 3, x) := by
  have hle : min m n ≤ un := by rw [hun]; split_ifs <;> omega
  have hit : ∀ p ∈ sqIdx (min m n), (Buf.usr 3, p.1 + ldu * p.2) ≠ (Buf.usr 3, x) := fun p hp e => by
    have hp' := mem_sqIdx.mp hp
    have h2 : p.1 + ldu * p.2 = x := congrArg Prod.snd e
    have := cm_lt (ld := ldu) (k := un) (i := p.1) (j := p.2) (by omega) (by omega)
    omega
  unfold sdInit sdEye
  rw [putL_not fun p _ e => by cases congrArg Prod.fst e]
  rw [putL_not (𝕜 := 𝕜) hit]
  · have e4 : ∀ s : Buf × Nat → 𝕜, (if allV then putL (fun i => (.usr 4, i + ldvt * i)) (fun _ => 1) (List.range' m (n - m)) s else s)
        (.usr 3, x) = s (.usr 3, x) := fun s => by
      split_ifs
      · rw [putL_not fun p _ e => by cases congrArg Prod.fst e]
      · rfl
    have e3 : ∀ s : Buf × Nat → 𝕜, (if allU then putL (fun i => (.usr 3, i + ldu * i)) (fun _ => 1) (List.range' n (m - n)) s else s)
        (.usr 3, x) = s (.usr 3, x) := fun s => by
      split_ifs with hU
      · rw [if_pos hU] at hun
        rw [putL_not fun p hp e => by
          have hp' := List.mem_range'_1.mp hp
          have h2 : p + ldu * p = x := congrArg Prod.snd e
          have := cm_lt (ld := ldu) (k := un) (i := p) (j := p) (by omega) (by omega)
          omega]
      · rfl
    simp only [e4, e3]
    rw [if_neg]
    rintro (⟨-, h⟩ | ⟨h, -⟩)
    · omega
    · cases h

theorem sdInit_outV {ldu ldvt : Nat} {RU RVT : Nat → ℝ} {mem : Buf × Nat → 𝕜} (hldvt : vm ≤ ldvt)
    (hvm : vm = if allV then n else min m n) {x : Nat} (hx : ldvt * n ≤ x) :
    sdInit allU allV m n un ldu ldvt RU RVT mem (.usr 4, x) = mem (.usr 4, x) := by
  have hle : min m n ≤ vm := by rw [hvm]; split_ifs <;> omega
  have hit : ∀ p ∈ sqIdx (min m n), (Buf.usr 4, p.1 + ldvt * p.2) ≠ (Buf.usr 4, x) := fun p hp e => by
    have hp' := mem_sqIdx.mp hp
    have h2 : p.1 + ldvt * p.2 = x := congrArg Prod.snd e
    have := cm_lt (ld := ldvt) (k := n) (i := p.1) (j := p.2) (by omega) (by omega)
    omega
  unfold sdInit sdEye
  rw [putL_not (𝕜 := 𝕜) hit]
  rw [putL_not fun p _ e => by cases congrArg Prod.fst e]
  · have e3 : ∀ s : Buf × Nat → 𝕜, (if allU then putL (fun i => (.usr 3, i + ldu * i)) (fun _ => 1) (List.range' n (m - n)) s else s)
        (.usr 4, x) = s (.usr 4, x) := fun s => by
      split_ifs
      · rw [putL_not fun p _ e => by cases congrArg Prod.fst e]
      · rfl
    have e4 : ∀ s : Buf × Nat → 𝕜, (if allV then putL (fun i => (.usr 4, i + ldvt * i)) (fun _ => 1) (List.range' m (n - m)) s else s)
        (.usr 4, x) = s (.usr 4, x) := fun s => by
      split_ifs with hV
      · rw [if_pos hV] at hvm
        rw [putL_not fun p hp e => by
          have hp' := List.mem_range'_1.mp hp
          have h2 : p + ldvt * p = x := congrArg Prod.snd e
          have := cm_lt (ld := ldvt) (k := n) (i := p) (j := p) (by omega) (by omega)
          omega]
      · rfl
    simp only [e4, e3]
    rw [if_neg]
    rintro (⟨h, -⟩ | ⟨-, h⟩)
    · cases h
    · omega

theorem sdReduce_frame (hK : QrSpec K) (hnb : 0 < nb) (hib : 0 < ib) (hlda : m ≤ lda) {mem mem' : Buf × Nat → 𝕜}
    (h : Exec (sdEnv ib nb m n lda) (sdReduce K ib nb m n) mem mem') {k : Nat} (hk : 3 ≤ k) (x : Nat) :
    mem' (.usr k, x) = mem (.usr k, x) := by
  refine Exec.frame_buf (sdEnv_wf (n := n) hnb hib hlda) (sdReduce_good hK hnb hib) h ?_ x
  refine Writes.append ?_ (Writes.append ?_ ?_)
  · refine Writes.mono (copyK_writes (stSq_none ..)) ?_
    rintro t ⟨m, n, rfl, -⟩ h; cases h
  · refine Writes.mono (pzge2gb_writes (sd_al hnb)) ?_
    rintro t (h | h) e <;> rw [e] at h <;> cases h; omega
  · refine Writes.mono (bandCpy_writes _) ?_
    rintro t h e; rw [e] at h; cases h; omega

/-- **C92, the part that holds.** Outside of the `ldu*Un` elements of the array `U`, the `ldvt*n` elements of the array `VT` and the
elements of `A` nothing is written.  With `ldu = m` and `ldvt = VTm` that is the claim.  (Missing: the rows of padding, see
`C92_padding_cleared`.) -/
theorem C92_writes_partial (hK : QrSpec K) (hnb : 2 ≤ nb) (hib : 0 < ib) (hmin : nb ≤ min m n) (hlda : m ≤ lda)
    (hldu : m ≤ ldu) (hldvt : vm ≤ ldvt) (hun : un = if allU then m else min m n) (hvm : vm = if allV then n else min m n)
    (h : SvdVecRun K ib nb V m n lda un ldu vm ldvt allU allV mem memF S) :
    (∀ x, ldu * un ≤ x → memF (.usr 3, x) = mem (.usr 3, x)) ∧
    (∀ x, ldvt * n ≤ x → memF (.usr 4, x) = mem (.usr 4, x)) ∧
    ∀ x, (∀ r c, r < m → c < n → x ≠ r + c * lda) → memF (.usr 0, x) = mem (.usr 0, x) := by
  have hnb0 : 0 < nb := by omega
  have hun' : un = min m n ∨ un = m := by rw [hun]; split_ifs <;> simp
  have f4 := fun {a : Buf} (e : a ≠ .til 3) (e' : a ≠ .usr 3) x => sdApplyU_frame hnb0 hib hmin hldu hldvt h.applyU e e' x
  have f6 := fun {a : Buf} (e : a ≠ .til 4) (e' : a ≠ .usr 4) x => sdApplyV_frame hnb0 hib hmin hldu hldvt h.applyV e e' x
  have e0 : ∀ k x, k ≠ 2 → sdStart nb m n mem (.usr k, x) = mem (.usr k, x) := fun k x hk => by
    unfold sdStart
    rw [if_neg (by rintro ⟨h, -⟩; cases h; exact hk rfl)]
  refine ⟨fun x hx => ?_, fun x hx => ?_, fun x hx => ?_⟩
  · rw [sdBack_frame hnb0 hib hlda h.back (by simp), f6 (by simp) (by simp), h.frameV _ _ (by simp),
      Exec.frame_pad (svEnv_wf hnb0 hib hldu hldvt) (sdApplyU_good hnb0 hib hmin) h.applyU (a := .usr 3) rfl _ ?_,
      h.frameU _ _ (Or.inr hx), sdInit_outU hldu hun hx, sdReduce_frame hK hnb0 hib hlda h.reduce le_rfl, e0 _ _ (by omega)]
    intro i j h1 h2 e
    have h1 : i < m := h1
    have h2 : j < un := h2
    have e : x = i + j * ldu := e
    have := cm_lt (ld := ldu) (k := un) (i := i) (j := j) (by omega) h2
    rw [Nat.mul_comm ldu j] at this
    omega
  · rw [sdBack_frame hnb0 hib hlda h.back (by simp),
      Exec.frame_pad (svEnv_wf hnb0 hib hldu hldvt) (sdApplyV_good hnb0 hib hmin) h.applyV (a := .usr 4) rfl _ ?_,
      h.frameV _ _ (Or.inr hx), f4 (by simp) (by simp), h.frameU _ _ (by simp), sdInit_outV hldvt hvm hx,
      sdReduce_frame hK hnb0 hib hlda h.reduce (by omega), e0 _ _ (by omega)]
    intro i j h1 h2 e
    have h1 : i < vm := h1
    have h2 : j < n := h2
    have e : x = i + j * ldvt := e
    have := cm_lt (ld := ldvt) (k := n) (i := i) (j := j) (by omega) h2
    rw [Nat.mul_comm ldvt j] at this
    omega
  · rw [Exec.frame_pad (sdEnv_wf (n := n) hnb0 hib hlda) (sdBack_good hnb0) h.back (a := .usr 0) rfl _ hx, f6 (by simp) (by simp),
      h.frameV _ _ (by simp), f4 (by simp) (by simp), h.frameU _ _ (by simp), sdInit_frame (by simp) (by simp),
      (sdReduce_spec hK hnb0 hib hlda h.reduce).2.2, e0 _ _ (by omega)]

/-- Runs exist, for every matrix and any number of threads. -/
theorem C91_exists (hK : QrSpec K) (hnb : 2 ≤ nb) (hib : 0 < ib) (hV : 0 < V) (hmin : nb ≤ min m n) (hlda : m ≤ lda)
    (hldu : m ≤ ldu) (hldvt : vm ≤ ldvt) {cores p1 p2 p3 p4 : Nat} (h1 : 0 < p1) (h2 : 0 < p2) (h3 : 0 < p3) (h4 : 0 < p4)
    (mem : Buf × Nat → 𝕜) :
    ∃ memF S, ∃ h : SvdVecRun K ib nb V m n lda un ldu vm ldvt allU allV mem memF S,
      h.cores = cores ∧ h.thr1 = p1 ∧ h.thr2 = p2 ∧ h.thr3 = p3 ∧ h.thr4 = p4 := by
  have hnb0 : 0 < nb := by omega
  obtain ⟨mem1, hred⟩ := sdReduce_exists hK hnb0 hib hlda (sdStart nb m n mem)
  obtain ⟨cm', hch⟩ := C89_exists (up := sdUp m n) (n := min m n) (nb := nb) (V := V) (cores := cores) (by omega) hnb0 hV
    (fun l => if l.1 = .a then mem1 (.usr 2, l.2) else 0)
  obtain ⟨Uh, hU, Vh, hVh, esvd⟩ := svd_exists (bidiag ℝ (sdUp m n) (min m n) (brdD (sdUp m n) nb cm') (brdE (sdUp m n) nb cm'))
  have hc : ∀ X : Matrix (Fin (min m n)) (Fin (min m n)) ℝ, ∃ R, colM (min m n) R = X := fun X => by
    have hk : 0 < min m n := by omega
    refine ⟨fun x => X ⟨x % min m n, Nat.mod_lt _ hk⟩ ⟨x / min m n % min m n, Nat.mod_lt _ hk⟩, ?_⟩
    ext i j
    show X _ _ = _
    congr 1
    · exact Fin.ext ((Nat.add_mul_mod_self_left ..).trans (Nat.mod_eq_of_lt i.2))
    · refine Fin.ext ?_
      show (i.1 + min m n * j.1) / min m n % min m n = j.1
      rw [Nat.add_mul_div_left _ _ hk, Nat.div_eq_of_lt i.2, Nat.zero_add, Nat.mod_eq_of_lt j.2]
  obtain ⟨RU, rfl⟩ := hc Uh
  obtain ⟨RVT, rfl⟩ := hc Vh
  obtain ⟨s1, g1⟩ := inter_exists p1 (Blg.larftProg (min m n) nb V p1)
  obtain ⟨s2, g2⟩ := inter_exists p2 (Blg.unmProg (min m n) nb V (min m n) p2)
  obtain ⟨s3, g3⟩ := inter_exists p3 (Blg.larftProg (min m n) nb V p3)
  obtain ⟨s4, g4⟩ := inter_exists p4 (Blg.unmProg (min m n) nb V (min m n) p4)
  have hput : ∀ (k ld q : Nat) (s : Buf × Nat → 𝕜) (E : Nat → Nat → 𝕜), ∃ s' : Buf × Nat → 𝕜,
      (∀ i j, i < ld → j < q → s' (.usr k, i + ld * j) = E i j) ∧ ∀ a x, a ≠ .usr k ∨ ld * q ≤ x → s' (a, x) = s (a, x) := by
    intro k ld q s E
    refine ⟨fun l => if l.1 = .usr k ∧ l.2 < ld * q then E (l.2 % ld) (l.2 / ld) else s l, fun i j hi hj => ?_, fun a x h => ?_⟩
    · show (if _ then _ else _) = _
      rw [if_pos ⟨rfl, cm_lt hi hj⟩, Nat.add_mul_mod_self_left, Nat.mod_eq_of_lt hi, Nat.add_mul_div_left _ _ (by omega),
        Nat.div_eq_of_lt hi, Nat.zero_add]
    · show (if _ then _ else _) = _
      rw [if_neg]
      rintro ⟨e, e'⟩
      rcases h with h | h
      · exact h e
      · exact absurd e' (by simpa using h)
  let EU : Nat → Nat → 𝕜 := fun i j => sdInit allU allV m n un ldu ldvt RU RVT mem1 (.usr 3, i + ldu * j)
  have hT1 : ∃ T1, Blg.LarftExec (min m n) nb V p1 (fun x => cm' (.q, x)) (fun x => cm' (.tq, x)) (fun _ => 0) T1 := ⟨_, s1, g1, rfl⟩
  obtain ⟨T1, hT1⟩ := hT1
  have hEU : ∃ EU', Blg.UnmExec true false (min m n) nb V (min m n) p2 (fun x => cm' (.q, x)) T1 EU EU' := ⟨_, s2, g2, rfl⟩
  obtain ⟨EU', hEU⟩ := hEU
  obtain ⟨mem3, o3, f3⟩ := hput 3 ldu un (sdInit allU allV m n un ldu ldvt RU RVT mem1) EU'
  obtain ⟨mem4, hap⟩ := sdApplyU_exists (un := un) hnb0 hib hmin hldu hldvt mem3
  let EV : Nat → Nat → 𝕜 := fun i j => mem4 (.usr 4, i + ldvt * j)
  have hT3 : ∃ T1, Blg.LarftExec (min m n) nb V p3 (fun x => cm' (.p, x)) (fun x => cm' (.tp, x)) (fun _ => 0) T1 := ⟨_, s3, g3, rfl⟩
  obtain ⟨T3, hT3⟩ := hT3
  have hEV : ∃ EV', Blg.UnmExec false true (min m n) nb V (min m n) p4 (fun x => cm' (.p, x)) T3 EV EV' := ⟨_, s4, g4, rfl⟩
  obtain ⟨EV', hEV⟩ := hEV
  obtain ⟨mem5, o5, f5⟩ := hput 4 ldvt n mem4 EV'
  obtain ⟨mem6, hap'⟩ := sdApplyV_exists (un := un) hnb0 hib hmin hldu hldvt mem5
  have hg := sdBack_good (𝕜 := 𝕜) (ib := ib) (m := m) (n := n) (lda := lda) hnb0
  obtain ⟨memF, hb⟩ := Exec.exists (sdEnv_wf (n := n) hnb0 hib hlda) hg.loc hg.ins mem6
  exact ⟨memF, fun i => sval (bidiag ℝ (sdUp m n) (min m n) (brdD (sdUp m n) nb cm') (brdE (sdUp m n) nb cm')) i,
    { mem1 := mem1, reduce := hred, cores := cores, cm := _, cm' := cm', band := fun x _ => by simp, vq := fun x => by simp,
      vp := fun x => by simp, chase := hch, RU := RU, RVT := RVT, uh := hU, vh := hVh, bdsdc := esvd, svals := fun _ _ => rfl,
      thr1 := p1, thr2 := p2, thr3 := p3, thr4 := p4, thr1_pos := h1, thr2_pos := h2, thr3_pos := h3, thr4_pos := h4,
      T0 := _, T1 := T1, T2 := _, T3 := T3, EU := EU, EU' := EU', EV := EV, EV' := EV', mem3 := mem3, larftQ := hT1, unmQ := hEU,
      inU := fun _ _ _ _ => rfl, outU := o3, frameU := f3, mem4 := mem4, applyU := hap, mem5 := mem5, larftP := hT3, unmP := hEV,
      inV := fun _ _ _ _ => rfl, outV := o5, frameV := f5, mem6 := mem6, applyV := hap', back := hb },
    rfl, rfl, rfl, rfl, rfl⟩

end

/-- The hypotheses are met: a 7 by 5 matrix that is not zero, all left vectors, `nb = 4`, `Vblksiz = 1`, several threads. -/
example : KReal (lkern : QrKern ℂ) ∧ QrSpec (lkern : QrKern ℂ) ∧ ∃ mem memF : Buf × Nat → ℂ, ∃ S, mem (.usr 0, 3) ≠ 0 ∧
    ∃ h : SvdVecRun lkern 2 4 1 7 5 8 7 9 5 6 true true mem memF S, h.cores = 3 ∧ h.thr2 = 4 := by
  obtain ⟨memF, S, h, e1, -, e2, -⟩ := C91_exists (lkern_spec (𝕜 := ℂ)) (ib := 2) (nb := 4) (V := 1) (m := 7) (n := 5) (lda := 8)
    (un := 7) (ldu := 9) (vm := 5) (ldvt := 6) (allU := true) (allV := true) (cores := 3) (p1 := 2) (p2 := 4) (p3 := 1) (p4 := 3)
    (by omega) (by omega) (by omega) (by omega) (by omega) (by omega) (by omega) (by omega) (by omega) (by omega) (by omega)
    (fun x => if x.1 = .usr 0 then 1 else 0)
  exact ⟨lkern_real, lkern_spec, _, memF, S, by simp, h, e1, e2⟩

/-- A 5 by 7 matrix, some vectors; the arrays have two rows and one row of padding, which held ones and are zero afterwards. -/
example : ∃ mem memF : Buf × Nat → ℂ, ∃ S, Nonempty (SvdVecRun lkern 2 4 1 5 7 8 5 7 5 6 false false mem memF S) ∧
    mem (.usr 3, 6 + 2 * 7) = 1 ∧ memF (.usr 3, 6 + 2 * 7) = 0 ∧ mem (.usr 4, 5 + 1 * 6) = 1 ∧ memF (.usr 4, 5 + 1 * 6) = 0 := by
  obtain ⟨memF, S, h, -⟩ := C91_exists (lkern_spec (𝕜 := ℂ)) (ib := 2) (nb := 4) (V := 1) (m := 5) (n := 7) (lda := 8)
    (un := 5) (ldu := 7) (vm := 5) (ldvt := 6) (allU := false) (allV := false) (cores := 3) (p1 := 2) (p2 := 4) (p3 := 1) (p4 := 3)
    (by omega) (by omega) (by omega) (by omega) (by omega) (by omega) (by omega) (by omega) (by omega) (by omega) (by omega)
    (fun _ => 1)
  obtain ⟨k1, k2⟩ := C92_padding_cleared (m := 5) (n := 7) (nb := 4) (ib := 2) (V := 1) (lda := 8) (ldu := 7) (ldvt := 6) (un := 5) (vm := 5) (allU := false) (allV := false) lkern_spec (by omega)
    (by omega) (by omega) (by omega) (by omega) (by omega) (by omega) rfl rfl h
  exact ⟨_, memF, S, ⟨h⟩, rfl, k1 6 2 (by omega) (by omega) (by omega), rfl, k2 5 1 (by omega) (by omega) (by omega)⟩

end Verif.Props

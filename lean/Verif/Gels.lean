/-
Least squares and minimum norm solutions: the tile algorithm of `plasma_omp_zgels` (compute/zgels.c:359-490).
-/
import Verif.LsMath
import Verif.LqGood
import Verif.Trsm
import Verif.LuSolve
import Verif.AuxNests

namespace Verif.Tile

open Verif.Layout Finset

universe u v
set_option linter.unusedSectionVars false

variable {M : Type u} {α : Type v}

/-- `plasma_desc_view` (control/descriptor.c:374-397) for a submatrix inside the matrix; otherwise the code exits. -/
def TMat.sub (A : TMat M) (i j m n : Nat) : TMat M :=
  ⟨A.id, { A.d with
    i := A.d.i + i, j := A.d.j + j, m := m, n := n
    mt := ntiles (A.d.i + i) m A.d.mb, nt := ntiles (A.d.j + j) n A.d.nb }⟩

variable {A B : TMat M} {b : Nat}

theorem TMat.sub_al (hA : A.Al b) (m n : Nat) : (A.sub 0 0 m n).Al b where
  pos := hA.pos
  mb := hA.mb
  nb := hA.nb
  i := hA.i
  j := hA.j
  mt := by show ntiles (A.d.i + 0) m A.d.mb = _; rw [hA.mb]; rfl
  nt := by show ntiles (A.d.j + 0) n A.d.nb = _; rw [hA.nb]; rfl

theorem TMat.sub_el (m n : Nat) (s : Store (M × Nat × Nat) α) : (A.sub 0 0 m n).el s = A.el s := rfl

theorem TMat.sub_fits {env : M → MatEnv} (hA : Fits env b A) {m n : Nat} (hm : m ≤ A.d.m) (hn : n ≤ A.d.n) :
    Fits env b (A.sub 0 0 m n) where
  al := sub_al hA.al m n
  mb := hA.mb
  nb := hA.nb
  rows := le_trans (Nat.add_le_add_left hm _) hA.rows
  cols := le_trans (Nat.add_le_add_left hn _) hA.cols
  st := hA.st

section
variable [CommRing α] [StarRing α] [DecidableEq α]

/-- A triangular solve with the leading rows leaves the others. -/
theorem trsm_keep {dv : α → α → α} {u : Uplo} {t : Trans} {d : Diag} {alpha : α} (hB : B.Al b) {n p : Nat}
    (s : Store (M × Nat × Nat) α) {r c : Nat} (hr : n ≤ r) :
    B.el (texec (pztrsm dv .left u t d alpha A (B.sub 0 0 n p)) s) r c = B.el s r c := by
  have hw : WritesE (fun x i j => ∃ q q', x = B.at' q q' ∧ i < tdim n b q)
      (pztrsm dv .left u t d alpha A (B.sub 0 0 n p)) := by
    rw [pztrsm_eq (TMat.sub_al hB n p) rfl rfl]
    refine WritesE.flatMap fun k _ => WritesE.flatMap fun q _ => WritesE.single ?_
    intro x i j h
    unfold trTask at h
    rw [if_pos rfl] at h
    split at h
    · next hk =>
      obtain ⟨rfl, h⟩ := h
      exact ⟨_, _, rfl, by rw [hk]; exact h.1⟩
    · obtain ⟨rfl, h⟩ := h
      exact ⟨_, _, rfl, h.1⟩
  unfold TMat.el
  refine hw.frame s ?_
  rintro ⟨q, q', e, h⟩
  obtain ⟨rfl, -⟩ := TMat.at'_inj.mp e
  rw [hB.mb] at h
  have := divmod r b
  unfold tdim at h
  omega

omit [StarRing α] [DecidableEq α] in
/-- Tasks that store zeros store zeros. -/
theorem texec_zero {P : List (TTask (M × Nat × Nat) α)}
    (h0 : ∀ t ∈ P, ∀ s x i j, t.wr x i j → t.run s x i j = 0) {x : M × Nat × Nat} {i j : Nat}
    (h : ∃ t ∈ P, t.wr x i j) (s : Store (M × Nat × Nat) α) : texec P s x i j = 0 := by
  induction P generalizing s with
  | nil => obtain ⟨t, ht, -⟩ := h; cases ht
  | cons t P ih =>
    rw [texec_cons]
    by_cases h' : ∃ t ∈ P, t.wr x i j
    · exact ih (fun t ht => h0 t (List.mem_cons_of_mem _ ht)) h' _
    · obtain ⟨t', ht', hw⟩ := h
      rcases List.mem_cons.mp ht' with rfl | ht'
      · rw [WritesE.frame (W := fun x i j => ∃ t ∈ P, t.wr x i j) (fun t ht x i j hw => ⟨t, ht, hw⟩) _ h']
        exact h0 _ List.mem_cons_self _ _ _ _ hw
      · exact absurd ⟨t', ht', hw⟩ h'

end

/-- The rows of a tile that `plasma_pzlaset` treats. -/
theorem lasetDim_gen {b n m i : Nat} (hb : 0 < b) (hi : i < ntiles n (m - n) b) :
    (if i = 0 then n % b else 0) = max n ((i + n / b) * b) - (i + n / b) * b ∧
    (if i = 0 then n % b else 0) + lasetDim n (m - n) b (ntiles n (m - n) b) i =
      min m ((i + n / b) * b + b) - (i + n / b) * b ∧ n < m ∧ (i + n / b) * b < m ∧ i + n / b ≤ (m - 1) / b := by
  have hnm : n < m := by
    unfold ntiles at hi
    split at hi <;> omega
  have e : ntiles n (m - n) b = (m - 1) / b - n / b + 1 := by
    unfold ntiles
    rw [if_neg (by omega), show n + (m - n) - 1 = m - 1 by omega]
  have hxy : n / b ≤ (m - 1) / b := Nat.div_le_div_right (by omega)
  have e2 : (n + (m - n) + b - 1) % b = (m - 1) % b := by
    rw [show n + (m - n) + b - 1 = m - 1 + b by omega, Nat.add_mod_right]
  have h1 := divmod n b
  have h2 := divmod (m - 1) b
  have h3 := Nat.mod_lt n hb
  have h4 := Nat.mod_lt (m - 1) hb
  rw [e] at hi ⊢
  unfold lasetDim
  rw [e2]
  generalize n / b = x at *
  generalize (m - 1) / b = y at *
  have hq : ∀ k, k ≤ y → k * b ≤ y * b := fun k hk => Nat.mul_le_mul_right _ hk
  by_cases h0 : i = 0
  · subst h0
    rw [Nat.zero_add, if_pos rfl]
    by_cases hy : x = y
    · subst hy
      rw [if_pos ⟨rfl, by omega⟩]
      omega
    · have := hq (x + 1) (by omega)
      rw [Nat.add_mul] at this
      rw [if_neg (by omega), if_pos rfl]
      omega
  · have h5 : (x + 1) * b ≤ (i + x) * b := Nat.mul_le_mul_right _ (by omega)
    rw [Nat.add_mul] at h5
    rw [if_neg h0, if_neg (by omega), if_neg h0]
    by_cases hy : i + x = y
    · rw [if_pos (by omega), hy]
      rw [hy] at h5
      omega
    · have := hq (i + x + 1) (by omega)
      rw [Nat.add_mul (i + x)] at this
      rw [if_neg (by omega)]
      omega

section
variable [Zero α] {n : Nat} (hB : B.Al b) (hi : B.d.i = 0) (hj : B.d.j = 0)
include hB hi hj

theorem sub_at (q q' : Nat) : (B.sub n 0 (B.d.m - n) B.d.n).at' q q' = B.at' (q + n / b) q' := by
  show (B.id, q + (B.d.i + n) / B.d.mb, q' + (B.d.j + 0) / B.d.nb) = (B.id, q + n / b + B.d.i / B.d.mb, q' + B.d.j / B.d.nb)
  rw [hi, hj, hB.mb]
  simp

/-- The tasks of `plasma_pzlaset` for the trailing rows `n..` of `B`. -/
theorem laset_sub_mem {t : TTask (M × Nat × Nat) α} :
    t ∈ pzlaset (α := α) none 0 0 (B.sub n 0 (B.d.m - n) B.d.n) ↔
      ∃ q q', q < ntiles n (B.d.m - n) b ∧ q' < B.d.nt ∧ t = coreLaset none (if q = 0 then n % b else 0) 0
        (lasetDim n (B.d.m - n) b (ntiles n (B.d.m - n) b) q) (tdim B.d.n b q') 0 0 (B.at' (q + n / b) q') := by
  have e1 : (B.sub n 0 (B.d.m - n) B.d.n).d.mt = ntiles n (B.d.m - n) b := by
    show ntiles (B.d.i + n) _ B.d.mb = _
    rw [hi, hB.mb, Nat.zero_add]
  have e2 : (B.sub n 0 (B.d.m - n) B.d.n).d.nt = B.d.nt := by
    show ntiles (B.d.j + 0) _ B.d.nb = _
    rw [hB.nt, hB.nb]; rfl
  have key : ∀ q q', q' < B.d.nt → coreLaset (α := α) none (if q = 0 then (B.sub n 0 (B.d.m - n) B.d.n).d.i %
        (B.sub n 0 (B.d.m - n) B.d.n).d.mb else 0) (if q' = 0 then (B.sub n 0 (B.d.m - n) B.d.n).d.j %
        (B.sub n 0 (B.d.m - n) B.d.n).d.nb else 0) (lasetDim (B.sub n 0 (B.d.m - n) B.d.n).d.i
        (B.sub n 0 (B.d.m - n) B.d.n).d.m (B.sub n 0 (B.d.m - n) B.d.n).d.mb (B.sub n 0 (B.d.m - n) B.d.n).d.mt q)
        (lasetDim (B.sub n 0 (B.d.m - n) B.d.n).d.j (B.sub n 0 (B.d.m - n) B.d.n).d.n (B.sub n 0 (B.d.m - n) B.d.n).d.nb
        (B.sub n 0 (B.d.m - n) B.d.n).d.nt q') 0 0 ((B.sub n 0 (B.d.m - n) B.d.n).at' q q') =
      coreLaset none (if q = 0 then n % b else 0) 0
        (lasetDim n (B.d.m - n) b (ntiles n (B.d.m - n) b) q) (tdim B.d.n b q') 0 0 (B.at' (q + n / b) q') := by
    intro q q' hq'
    rw [sub_at hB hi hj, e1, e2]
    have f1 : (B.sub n 0 (B.d.m - n) B.d.n).d.i = n := by show B.d.i + n = n; rw [hi, Nat.zero_add]
    have f2 : (B.sub n 0 (B.d.m - n) B.d.n).d.j = 0 := hj
    have f3 : (B.sub n 0 (B.d.m - n) B.d.n).d.mb = b := hB.mb
    have f4 : (B.sub n 0 (B.d.m - n) B.d.n).d.nb = b := hB.nb
    rw [f1, f2, f3, f4, Nat.zero_mod, ite_self]
    rw [hB.nt_eq] at hq' ⊢
    rw [show (B.sub n 0 (B.d.m - n) B.d.n).d.n = B.d.n from rfl, lasetDim_al hB.pos (Nat.zero_mod _) hq']
    rfl
  unfold pzlaset
  simp only [List.mem_flatMap, List.mem_range, true_or, if_true, List.mem_singleton, ite_self]
  rw [e1, e2]
  constructor
  · rintro ⟨q, hq, q', hq', rfl⟩
    exact ⟨q, q', hq, hq', by have k := key q q' hq'; rw [e1, e2] at k; exact k⟩
  · rintro ⟨q, q', hq, hq', rfl⟩
    exact ⟨q, hq, q', hq', by have k := key q q' hq'; rw [e1, e2] at k; exact k.symm⟩

end

section
variable [CommRing α] {n : Nat}

/-- The trailing rows become zero, the others stay. -/
theorem laset_sub_el (hB : B.Al b) (hi : B.d.i = 0) (hj : B.d.j = 0) (s : Store (M × Nat × Nat) α) {r c : Nat}
    (hr : r < B.d.m) (hc : c < B.d.n) :
    B.el (texec (pzlaset none 0 0 (B.sub n 0 (B.d.m - n) B.d.n)) s) r c = if n ≤ r then 0 else B.el s r c := by
  have hb := hB.pos
  have d1 := divmod r b
  have d2 := Nat.mod_lt r hb
  unfold TMat.el
  rw [hB.mb, hB.nb]
  by_cases hnr : n ≤ r
  · rw [if_pos hnr]
    refine texec_zero ?_ ?_ s
    · intro t ht s x i j hw
      obtain ⟨q, q', hq, hq', rfl⟩ := (laset_sub_mem hB hi hj).mp ht
      rw [TTask.run_wr _ _ hw]
      show (if _ then (0 : α) else 0) = 0
      exact ite_self _
    · have hq : r / b - n / b < ntiles n (B.d.m - n) b := by
        unfold ntiles
        rw [if_neg (by omega), show n + (B.d.m - n) - 1 = B.d.m - 1 by omega]
        have : r / b ≤ (B.d.m - 1) / b := Nat.div_le_div_right (by omega)
        omega
      have hle : n / b ≤ r / b := Nat.div_le_div_right hnr
      refine ⟨_, (laset_sub_mem hB hi hj).mpr ⟨r / b - n / b, c / b, hq, hB.col_nt hc, rfl⟩, ?_⟩
      obtain ⟨f1, f2, f3, f4, -⟩ := lasetDim_gen hb hq
      rw [Nat.sub_add_cancel hle] at f1 f2 f4
      rw [Nat.sub_add_cancel hle]
      refine ⟨rfl, ?_, ?_, Nat.zero_le _, ?_, trivial⟩
      · rw [f1]; omega
      · rw [f2]; omega
      · rw [Nat.zero_add]; exact mod_lt_tdim hb hc
  · rw [if_neg hnr]
    refine WritesE.frame (W := fun x i j => ∃ t ∈ pzlaset (α := α) none 0 0 (B.sub n 0 (B.d.m - n) B.d.n), t.wr x i j)
      (fun t ht x i j hw => ⟨t, ht, hw⟩) s ?_
    rintro ⟨t, ht, hw⟩
    obtain ⟨q, q', hq, hq', rfl⟩ := (laset_sub_mem hB hi hj).mp ht
    obtain ⟨f1, f2, f3, f4, -⟩ := lasetDim_gen hb hq
    obtain ⟨e, h1, -⟩ := hw
    obtain ⟨e, -⟩ := TMat.at'_inj.mp e
    rw [f1, ← e] at h1
    omega

theorem laset_sub_ws (hB : B.Al b) (hi : B.d.i = 0) (hj : B.d.j = 0) :
    Writes (fun x => x.1 = B.id) (pzlaset (α := α) none 0 0 (B.sub n 0 (B.d.m - n) B.d.n)) := by
  intro t ht x i j hw
  obtain ⟨q, q', hq, hq', rfl⟩ := (laset_sub_mem hB hi hj).mp ht
  exact congrArg Prod.fst hw.1

theorem laset_sub_good {env : M → MatEnv} (hB : Fits env b B) (hi : B.d.i = 0) (hj : B.d.j = 0) :
    Good (evalid env) (pzlaset (α := α) none 0 0 (B.sub n 0 (B.d.m - n) B.d.n)) := by
  have hb := hB.al.pos
  refine ⟨fun t ht => ?_, fun t ht => ?_, fun t ht => ?_⟩ <;>
    obtain ⟨q, q', hq, hq', rfl⟩ := (laset_sub_mem hB.al hi hj).mp ht
  · exact coreLaset_local
  · exact op0_declared
  · refine op0_inside fun i j hij => ?_
    obtain ⟨f1, f2, f3, f4, -⟩ := lasetDim_gen hb hq
    obtain ⟨h1, h2, -, h4, -⟩ := hij
    rw [f2] at h2
    refine hB.box (le_refl (tdim B.d.m b (q + n / b))) (le_refl (tdim B.d.n b q')) i j ⟨?_, by omega⟩
    unfold tdim
    omega

end

end Verif.Tile

namespace Verif.Ls

open Verif.Layout Verif.Tile Verif.Tree Verif.Qr Finset Matrix

universe u v
set_option linter.unusedSectionVars false

variable {M : Type u} [DecidableEq M] {𝕜 : Type v} [RCLike 𝕜]

/-- The leading `m` by `n` part. -/
def ofE (m n : Nat) (X : Nat → Nat → 𝕜) : Matrix (Fin m) (Fin n) 𝕜 := Matrix.of fun i j => X i j

theorem trE_triu (X : Nat → Nat → 𝕜) (i j : Nat) : trE .upper .nonUnit X i j = triu X i j := by
  unfold trE triu
  have : inTri .upper i j = (i ≤ j) := rfl
  simp only [this]
  split_ifs <;> simp_all

theorem trE_tril (X : Nat → Nat → 𝕜) (i j : Nat) : trE .lower .nonUnit X i j = tril X i j := by
  unfold trE tril
  have : inTri .lower i j = (j ≤ i) := rfl
  simp only [this]
  split_ifs <;> simp_all

theorem lmul_mulVec {m : Nat} (Q : Matrix (Fin m) (Fin m) 𝕜) (X : Nat → Nat → 𝕜) (i : Fin m) (c : Nat) :
    lmul Q X i c = (Q *ᵥ fun l : Fin m => X l c) i := by
  unfold lmul
  rw [dif_pos i.2]
  rfl

theorem ofE_lmul {m n : Nat} {Q : Matrix (Fin m) (Fin m) 𝕜} {X A : Nat → Nat → 𝕜}
    (h : ∀ r c, r < m → c < n → lmul Q X r c = A r c) : ofE m n A = Q * ofE m n X := by
  refine Matrix.ext fun i j => ?_
  show A i j = _
  rw [← h i j i.2 j.2, Matrix.mul_apply]
  unfold lmul
  rw [dif_pos i.2]
  rfl

theorem ofE_rmul {m n : Nat} {Q : Matrix (Fin n) (Fin n) 𝕜} {X A : Nat → Nat → 𝕜}
    (h : ∀ r c, r < m → c < n → rmul X Q r c = A r c) : ofE m n A = ofE m n X * Q := by
  refine Matrix.ext fun i j => ?_
  show A i j = _
  rw [← h i j i.2 j.2, Matrix.mul_apply]
  unfold rmul
  rw [dif_pos j.2]
  rfl

theorem sum_top {m n : Nat} (hn : n ≤ m) {f : Fin m → 𝕜} (h : ∀ i : Fin m, n ≤ i → f i = 0) :
    ∑ i : Fin m, f i = ∑ l : Fin n, f (Fin.castLE hn l) := by
  have e : ∀ i : Fin m, f i = (fun l => if h : l < m then f ⟨l, h⟩ else 0) (i : Nat) := fun i => by
    dsimp only
    rw [dif_pos i.2]
  rw [sum_congr rfl fun i _ => e i, sum_congr rfl fun (i : Fin n) _ => e (Fin.castLE hn i)]
  refine (Fin.sum_univ_eq_sum_range (fun l => if h : l < m then f ⟨l, h⟩ else 0) m).trans ?_
  refine Eq.trans ?_ (Fin.sum_univ_eq_sum_range (fun l => if h : l < m then f ⟨l, h⟩ else 0) n).symm
  refine (sum_subset (range_subset_range.mpr hn) fun i h1 h2 => ?_).symm
  rw [mem_range] at h1 h2
  rw [dif_pos h1]
  exact h ⟨i, h1⟩ (by show n ≤ i; omega)

section
variable [DecidableEq 𝕜] {K : QrKern 𝕜} (hK : QrSpec K) {dv : 𝕜 → 𝕜 → 𝕜} (hdv : IsDiv dv) {b ib m n : Nat} (hib : 0 < ib)
  {off off' : Nat → Nat} {A B T T' : TMat M} (hA : A.Al b) (hAm : A.d.m = m) (hAn : A.d.n = n) (hB : B.Al b)
  (hTA : T.id ≠ A.id) (hTB : T.id ≠ B.id) (hAB : A.id ≠ B.id) {ops : List Op} (s : Store (M × Nat × Nat) 𝕜)

/-- Tasks of the least squares solve with QR (compute/zgels.c:371-399). -/
noncomputable def qrOver (K : QrKern 𝕜) (dv : 𝕜 → 𝕜 → 𝕜) (ib : Nat) (off : Nat → Nat) (ops : List Op) (A T B : TMat M) :
    List (TTask (M × Nat × Nat) 𝕜) :=
  ops.flatMap (facT K ib off A T) ++ (ops.flatMap (updL true ib off A T B (List.range B.d.nt)) ++
    pztrsm dv .left .upper .noTrans .nonUnit 1 (A.sub 0 0 A.d.n A.d.n) (B.sub 0 0 A.d.n B.d.n))

/-- Tasks of the minimum norm solve with QR (compute/zgels.c:371-377, 403-426). -/
noncomputable def qrUnder (K : QrKern 𝕜) (dv : 𝕜 → 𝕜 → 𝕜) (ib : Nat) (off : Nat → Nat) (ops : List Op) (A T B : TMat M) :
    List (TTask (M × Nat × Nat) 𝕜) :=
  ops.flatMap (facT K ib off A T) ++ (pzlaset none 0 0 (B.sub A.d.n 0 (A.d.m - A.d.n) B.d.n) ++
    (pztrsm dv .left .upper .conjTrans .nonUnit 1 (A.sub 0 0 A.d.n A.d.n) (B.sub 0 0 A.d.n B.d.n) ++
      ops.reverse.flatMap (updL false ib off A T B (List.range B.d.nt))))

/-- Tasks of the least squares solve with LQ (compute/zgels.c:434-440, 471-488). -/
noncomputable def lqOver (K : QrKern 𝕜) (dv : 𝕜 → 𝕜 → 𝕜) (ib : Nat) (off : Nat → Nat) (ops : List Op) (A T B : TMat M) :
    List (TTask (M × Nat × Nat) 𝕜) :=
  ops.flatMap (lfacT K ib off A T) ++ (ops.flatMap (lupdL false false ib off A T B (List.range B.d.nt)) ++
    pztrsm dv .left .lower .conjTrans .nonUnit 1 (A.sub 0 0 A.d.m A.d.m) (B.sub 0 0 A.d.m B.d.n))

/-- Tasks of the minimum norm solve with LQ (compute/zgels.c:434-467). -/
noncomputable def lqUnder (K : QrKern 𝕜) (dv : 𝕜 → 𝕜 → 𝕜) (ib : Nat) (off : Nat → Nat) (ops : List Op) (A T B : TMat M) :
    List (TTask (M × Nat × Nat) 𝕜) :=
  ops.flatMap (lfacT K ib off A T) ++ (pzlaset none 0 0 (B.sub A.d.m 0 (A.d.n - A.d.m) B.d.n) ++
    (pztrsm dv .left .lower .noTrans .nonUnit 1 (A.sub 0 0 A.d.m A.d.m) (B.sub 0 0 A.d.m B.d.n) ++
      ops.reverse.flatMap (lupdL false true ib off A T B (List.range B.d.nt))))

theorem el_frame {P : List (TTask (M × Nat × Nat) 𝕜)} {W : M × Nat × Nat → Prop} (hP : Writes W P) {C : TMat M}
    (h : ∀ q q', ¬ W (C.at' q q')) (s : Store (M × Nat × Nat) 𝕜) : C.el (texec P s) = C.el s := by
  funext r c
  unfold TMat.el
  rw [hP.frame s (h _ _)]

theorem updL_ws {t : Bool} {ib : Nat} {off : Nat → Nat} {A T B : TMat M} {L : List Op} {ns : List Nat} :
    Writes (fun x : M × Nat × Nat => x.1 = B.id) (L.flatMap (updL (α := 𝕜) t ib off A T B ns)) :=
  Writes.flatMap fun o _ => (updL_writes o).mono fun x h => by
    obtain ⟨r, n, -, -, e⟩ := h; exact congrArg Prod.fst e

theorem lupdL_ws {t u : Bool} {ib : Nat} {off : Nat → Nat} {A T B : TMat M} {L : List Op} {ns : List Nat} :
    Writes (fun x : M × Nat × Nat => x.1 = B.id) (L.flatMap (lupdL (α := 𝕜) t u ib off A T B ns)) :=
  Writes.flatMap fun o _ => lupdL_writes o

section
omit [DecidableEq 𝕜] in
theorem sum_fin {m : Nat} (f : Nat → 𝕜) : ∑ i : Fin m, f i = ∑ l ∈ range m, f l := Fin.sum_univ_eq_sum_range f m

/-- Triangular solve with the transformed right hand sides: a least squares solution and its residual. -/
theorem over_core (hn : n ≤ m) {u : Uplo} {t : Trans} {Q : Matrix (Fin m) (Fin m) 𝕜} {R : Matrix (Fin m) (Fin n) 𝕜}
    {F : Matrix (Fin m) (Fin n) 𝕜} (hQ : Q ∈ unitaryGroup (Fin m) 𝕜)
    (hR : ∀ (i : Fin m) (j : Fin n), (j : Nat) < i → R i j = 0) (hF : F = Q * R) (hr : FullColRank F)
    {A B : TMat M} (hA : A.Al b) (hB : B.Al b) (hAB : A.id ≠ B.id) (s2 : Store (M × Nat × Nat) 𝕜)
    (hRe : ∀ i l : Fin n, opE t (trE u .nonUnit (A.el s2)) i l = R (Fin.castLE hn i) l)
    {rhs : Fin m → 𝕜} {c : Nat} (hc : c < B.d.n) (hBe : ∀ i : Fin m, B.el s2 i c = (Qᴴ *ᵥ rhs) i) (hdv : IsDiv dv) :
    IsLeastSquares F rhs (fun i => B.el (texec (pztrsm dv .left u t .nonUnit 1 (A.sub 0 0 n n) (B.sub 0 0 n B.d.n)) s2) i c) ∧
    ∑ i, ‖rhs i - (F *ᵥ fun i : Fin n => B.el (texec (pztrsm dv .left u t .nonUnit 1 (A.sub 0 0 n n)
        (B.sub 0 0 n B.d.n)) s2) i c) i‖ ^ 2 =
      ∑ i : Fin m, if n ≤ i then ‖B.el (texec (pztrsm dv .left u t .nonUnit 1 (A.sub 0 0 n n)
        (B.sub 0 0 n B.d.n)) s2) i c‖ ^ 2 else 0 := by
  have hBB : (B.sub 0 0 n B.d.n).Al b := TMat.sub_al hB ..
  have hAA : (A.sub 0 0 n n).Al b := TMat.sub_al hA ..
  have hd := diag_ne hn hR (by rw [← hF]; exact hr)
  have hsol : ∀ r, r < n → ∑ l ∈ range n, opE t (trE u .nonUnit (A.el s2)) r l *
      B.el (texec (pztrsm dv .left u t .nonUnit 1 (A.sub 0 0 n n) (B.sub 0 0 n B.d.n)) s2) l c = B.el s2 r c := by
    intro r hr
    refine trsm_left_el (u := u) (t := t) (d := .nonUnit) hdv hAA hBB hAB s2 (fun i hi => ?_) (r := r) (c := c) hr hc
    have h1 := hRe ⟨i, hi⟩ ⟨i, hi⟩
    have h2 := hd ⟨i, hi⟩
    rw [← h1] at h2
    intro e
    apply h2
    rw [TMat.sub_el] at e
    unfold opE
    cases t
    · exact e
    · exact e
    · show star (trE u .nonUnit (A.el s2) i i) = 0
      rw [e, star_zero]
  rw [hF]
  obtain ⟨g1, g2⟩ := ls_over (x := fun i : Fin n => B.el (texec (pztrsm dv .left u t .nonUnit 1 (A.sub 0 0 n n)
    (B.sub 0 0 n B.d.n)) s2) i c) (b := rhs) hn hQ hR (by
      intro i
      rw [← hBe, Fin.val_castLE, ← hsol i i.2, ← sum_fin]
      unfold mulVec dotProduct
      refine Finset.sum_congr rfl fun l _ => ?_
      rw [hRe])
  refine ⟨g1, g2.trans (sum_congr rfl fun i _ => ?_)⟩
  split
  · next hi => rw [trsm_keep hB s2 hi, hBe]
  · rfl

/-- Triangular solve followed by the unitary factor: the minimum norm solution. -/
theorem under_core (hn : n ≤ m) {u : Uplo} {t : Trans} {Q : Matrix (Fin m) (Fin m) 𝕜} {R : Matrix (Fin m) (Fin n) 𝕜}
    {F : Matrix (Fin m) (Fin n) 𝕜} (hQ : Q ∈ unitaryGroup (Fin m) 𝕜)
    (hR : ∀ (i : Fin m) (j : Fin n), (j : Nat) < i → R i j = 0) (hF : F = Q * R) (hr : FullColRank F)
    {A B : TMat M} (hA : A.Al b) (hB : B.Al b) (hAB : A.id ≠ B.id) (s2 : Store (M × Nat × Nat) 𝕜)
    (hRe : ∀ i l : Fin n, opE t (trE u .nonUnit (A.el s2)) i l = star (R (Fin.castLE hn l) i))
    {rhs : Fin n → 𝕜} {c : Nat} (hc : c < B.d.n) (hBe : ∀ i : Fin n, B.el s2 i c = rhs i)
    (hB0 : ∀ i : Fin m, n ≤ i → B.el s2 i c = 0) (hdv : IsDiv dv) {x : Fin m → 𝕜}
    (hx : x = Q *ᵥ fun i : Fin m => B.el (texec (pztrsm dv .left u t .nonUnit 1 (A.sub 0 0 n n) (B.sub 0 0 n B.d.n)) s2) i c) :
    IsMinNorm Fᴴ rhs x := by
  have hBB : (B.sub 0 0 n B.d.n).Al b := TMat.sub_al hB ..
  have hAA : (A.sub 0 0 n n).Al b := TMat.sub_al hA ..
  have hd := diag_ne hn hR (by rw [← hF]; exact hr)
  have hsol : ∀ r, r < n → ∑ l ∈ range n, opE t (trE u .nonUnit (A.el s2)) r l *
      B.el (texec (pztrsm dv .left u t .nonUnit 1 (A.sub 0 0 n n) (B.sub 0 0 n B.d.n)) s2) l c = B.el s2 r c := by
    intro r hr
    refine trsm_left_el (u := u) (t := t) (d := .nonUnit) hdv hAA hBB hAB s2 (fun i hi => ?_) (r := r) (c := c) hr hc
    have h1 := hRe ⟨i, hi⟩ ⟨i, hi⟩
    have h2 := hd ⟨i, hi⟩
    rw [← star_ne_zero, ← h1] at h2
    intro e
    apply h2
    rw [TMat.sub_el] at e
    unfold opE
    cases t
    · exact e
    · exact e
    · show star (trE u .nonUnit (A.el s2) i i) = 0
      rw [e, star_zero]
  have hz : ∀ i : Fin m, n ≤ i → B.el (texec (pztrsm dv .left u t .nonUnit 1 (A.sub 0 0 n n) (B.sub 0 0 n B.d.n)) s2) i c = 0 :=
    fun i hi => by rw [trsm_keep hB s2 hi, hB0 i hi]
  rw [hF, hx]
  refine ls_under hn hQ hR (by rw [← hF]; exact hr) hz ?_
  funext i
  rw [← hBe, ← hsol i i.2, ← sum_fin]
  refine (sum_top hn (f := fun l : Fin m => star (R l i) * B.el (texec (pztrsm dv .left u t .nonUnit 1 (A.sub 0 0 n n)
    (B.sub 0 0 n B.d.n)) s2) l c) fun l h1 => by rw [hz l h1, mul_zero]).trans ?_
  exact sum_congr rfl fun l _ => by rw [hRe]; rfl

end

include hK hdv hib hA hAm hAn hB hTA hTB hAB

theorem qrOver_el (hn : n ≤ m) (hBm : B.d.m = m) (ho : OpsOK A.d.mt A.d.nt ops) (hnd : (ops.map (opTt off T)).Nodup)
    (hz : ∀ o ∈ ops, ZeroT ib b off T s o) (hr : FullColRank (ofE m n (A.el s))) :
    (∃ Q ∈ unitaryGroup (Fin m) 𝕜, Q * ofE m n (triu (A.el (texec (qrOver K dv ib off ops A T B) s))) = ofE m n (A.el s)) ∧
    ∀ c, c < B.d.n → IsLeastSquares (ofE m n (A.el s)) (fun i => B.el s i c)
        (fun i => B.el (texec (qrOver K dv ib off ops A T B) s) i c) ∧
      ∑ i : Fin m, ‖B.el s i c - (ofE m n (A.el s) *ᵥ fun i => B.el (texec (qrOver K dv ib off ops A T B) s) i c) i‖ ^ 2 =
        ∑ i : Fin m, if n ≤ i then ‖B.el (texec (qrOver K dv ib off ops A T B) s) i c‖ ^ 2 else 0 := by
  obtain ⟨f1, f2⟩ := fac_ok hK hib hA hAm hAn hTA ho hnd s hz
  have hB1 : B.el (texec (ops.flatMap (facT K ib off A T)) s) = B.el s :=
    el_frame fac_writes (fun q q' h => h.elim hAB.symm hTB.symm) s
  unfold qrOver
  rw [texec_append, texec_append, hAn]
  set s1 := texec (ops.flatMap (facT K ib off A T)) s with hs1
  set Q := qAll b m n ib off A T s1 ops with hQ
  have hA2 : A.el (texec (ops.flatMap (updL true ib off A T B (List.range B.d.nt))) s1) = A.el s1 :=
    el_frame updL_ws (fun q q' h => hAB h) s1
  have hB2 : ∀ r c, r < m → c < B.d.n →
      B.el (texec (ops.flatMap (updL true ib off A T B (List.range B.d.nt))) s1) r c = lmul (qop true Q) (B.el s) r c := by
    intro r c hr hc
    have := unmqr_left (t := true) (ib := ib) (off := off) hA hB hAm hAn hBm hTB hAB (ops_inB ho) s1 hr hc
    rw [hB1] at this
    exact this
  set s2 := texec (ops.flatMap (updL true ib off A T B (List.range B.d.nt))) s1 with hs2
  have hA3 : A.el (texec (pztrsm dv .left .upper .noTrans .nonUnit 1 (A.sub 0 0 n n) (B.sub 0 0 n B.d.n)) s2) = A.el s2 :=
    trsm_A (TMat.sub_al hB ..) hAB s2
  have hAe : ofE m n (A.el s) = Q * ofE m n (triu (A.el s1)) := ofE_lmul f2
  have hR : ∀ (i : Fin m) (j : Fin n), (j : Nat) < i → ofE m n (triu (A.el s1)) i j = 0 := fun i j h =>
    if_neg (by omega)
  refine ⟨⟨Q, f1, by rw [hA3, hA2]; exact hAe.symm⟩, fun c hc => ?_⟩
  exact over_core hn f1 hR hAe hr hA hB hAB s2 (fun i l => by
    rw [hA2]; exact trE_triu ..) hc (fun i => by
    rw [hB2 i c i.2 hc, lmul_mulVec]; rfl) hdv

theorem qrUnder_el (hn : n ≤ m) (hBm : B.d.m = m) (hi : B.d.i = 0) (hj : B.d.j = 0)
    (ho : OpsOK A.d.mt A.d.nt ops) (hnd : (ops.map (opTt off T)).Nodup)
    (hz : ∀ o ∈ ops, ZeroT ib b off T s o) (hr : FullColRank (ofE m n (A.el s))) :
    (∃ Q ∈ unitaryGroup (Fin m) 𝕜, Q * ofE m n (triu (A.el (texec (qrUnder K dv ib off ops A T B) s))) = ofE m n (A.el s)) ∧
    ∀ c, c < B.d.n → IsMinNorm (ofE m n (A.el s))ᴴ (fun i => B.el s i c)
        (fun i => B.el (texec (qrUnder K dv ib off ops A T B) s) i c) := by
  obtain ⟨f1, f2⟩ := fac_ok hK hib hA hAm hAn hTA ho hnd s hz
  have hB1 : B.el (texec (ops.flatMap (facT K ib off A T)) s) = B.el s :=
    el_frame fac_writes (fun q q' h => h.elim hAB.symm hTB.symm) s
  unfold qrUnder
  rw [texec_append, texec_append, texec_append, hAn, hAm]
  set s1 := texec (ops.flatMap (facT K ib off A T)) s with hs1
  set Q := qAll b m n ib off A T s1 ops with hQ
  have w2 : Writes (fun x => x.1 = B.id) (pzlaset (α := 𝕜) none 0 0 (B.sub n 0 (B.d.m - n) B.d.n)) := laset_sub_ws hB hi hj
  have hB2 : ∀ r c, r < B.d.m → c < B.d.n → B.el (texec (pzlaset none 0 0 (B.sub n 0 (B.d.m - n) B.d.n)) s1) r c =
      if n ≤ r then 0 else B.el s r c := by
    intro r c hr hc
    rw [laset_sub_el hB hi hj s1 hr hc, hB1]
  rw [hBm] at w2 hB2
  set s2 := texec (pzlaset none 0 0 (B.sub n 0 (m - n) B.d.n)) s1 with hs2
  have hA2 : A.el s2 = A.el s1 := el_frame w2 (fun q q' h => hAB h) s1
  have hBB : (B.sub 0 0 n B.d.n).Al b := TMat.sub_al hB ..
  set s3 := texec (pztrsm dv .left .upper .conjTrans .nonUnit 1 (A.sub 0 0 n n) (B.sub 0 0 n B.d.n)) s2 with hs3
  have hA3 : A.el s3 = A.el s2 := trsm_A hBB hAB s2
  have hT3 : ∀ x i j, x.1 = T.id → s3 x i j = s1 x i j := by
    intro x i j hx
    rw [hs3, (pztrsm_writes hBB rfl rfl).frame s2 (by rw [hx]; exact hTB), hs2, w2.frame s1 (by rw [hx]; exact hTB)]
  have hA4 : A.el (texec (ops.reverse.flatMap (updL false ib off A T B (List.range B.d.nt))) s3) = A.el s3 :=
    el_frame updL_ws (fun q q' h => hAB h) s3
  have hQ3 : qAll b m n ib off A T s3 ops = Q := by
    refine qAll_agree hA hA (ops_inB ho) (fun r c _ _ => by rw [hA3, hA2]) fun o ho i j hi hj => hT3 _ i j ?_
    cases o <;> rfl
  have hAe : ofE m n (A.el s) = Q * ofE m n (triu (A.el s1)) := ofE_lmul f2
  have hR : ∀ (i : Fin m) (j : Fin n), (j : Nat) < i → ofE m n (triu (A.el s1)) i j = 0 := fun i j h =>
    if_neg (by omega)
  refine ⟨⟨Q, f1, by rw [hA4, hA3, hA2]; exact hAe.symm⟩, fun c hc => ?_⟩
  refine under_core hn f1 hR hAe hr hA hB hAB s2 (u := .upper) (t := .conjTrans) (fun i l => ?_) hc
    (fun i => ?_) (fun i hi => ?_) hdv ?_
  · rw [hA2]
    exact congrArg star (trE_triu ..)
  · rw [hB2 i c (by omega) hc, if_neg (by omega)]
  · rw [hB2 i c i.2 hc, if_pos hi]
  · funext i
    have := unmqr_left (t := false) (ib := ib) (off := off) hA hB hAm hAn hBm hTB hAB (ops_inB ho) s3 i.2 hc
    rw [hQ3, lmul_mulVec] at this
    exact this

end

section
variable [DecidableEq 𝕜] {K : QrKern 𝕜} (hK : QrSpec K) {dv : 𝕜 → 𝕜 → 𝕜} (hdv : IsDiv dv) {b ib m n : Nat} (hib : 0 < ib)
  {F : Flip M} {off off' : Nat → Nat} {A B T T' : TMat M} (hA : A.Al b) (hAm : A.d.m = m) (hAn : A.d.n = n) (hB : B.Al b)
  (hAF : A.id ≠ F.tid) (hBF : B.id ≠ F.tid) (hAB : A.id ≠ B.id) {ops : List Op} (ho : OpsOK A.d.nt A.d.mt ops)
  (hnd : (ops.map (opTt off' T')).Nodup) (hTi : T'.id = F.tid) (hTT : T.id = F.tid)
  (hT : ∀ o ∈ ops, TSim F off off' T T' o) (s : Store (M × Nat × Nat) 𝕜)
  (hz : ∀ o ∈ ops, isTT o = true → ∀ i j, i < ib → j < b → s (lTt off T o) i j = 0)
include hK hdv hib hA hAm hAn hB hAF hBF hAB ho hnd hTi hTT hT hz

theorem lqOver_el (hn : m ≤ n) (hBm : B.d.m = n) (hr : FullColRank (ofE m n (A.el s))ᴴ) :
    (∃ Q ∈ unitaryGroup (Fin n) 𝕜, ofE m n (tril (A.el (texec (lqOver K dv ib off ops A T B) s))) * Q = ofE m n (A.el s)) ∧
    ∀ c, c < B.d.n → IsLeastSquares (ofE m n (A.el s))ᴴ (fun i => B.el s i c)
        (fun i => B.el (texec (lqOver K dv ib off ops A T B) s) i c) ∧
      ∑ i : Fin n, ‖B.el s i c - ((ofE m n (A.el s))ᴴ *ᵥ fun i => B.el (texec (lqOver K dv ib off ops A T B) s) i c) i‖ ^ 2 =
        ∑ i : Fin n, if m ≤ i then ‖B.el (texec (lqOver K dv ib off ops A T B) s) i c‖ ^ 2 else 0 := by
  obtain ⟨f1, f2⟩ := lfac_ok hK hib hA hAm hAn hAF ho hnd hTi hT s hz
  have hB1 : B.el (texec (ops.flatMap (lfacT K ib off A T)) s) = B.el s :=
    el_frame lfac_writes (fun q q' h => h.elim hAB.symm (by rw [hTT]; exact hBF)) s
  unfold lqOver
  rw [texec_append, texec_append, hAm]
  set s1 := texec (ops.flatMap (lfacT K ib off A T)) s with hs1
  set Q := lqAll F b m n ib off' A T' s1 ops with hQ
  set s2 := texec (ops.flatMap (lupdL false false ib off A T B (List.range B.d.nt))) s1 with hs2
  have hA2 : A.el s2 = A.el s1 := el_frame lupdL_ws (fun q q' h => hAB h) s1
  have hB2 : ∀ r c, r < n → c < B.d.n → B.el s2 r c = lmul Q (B.el s) r c := by
    intro r c hr hc
    have := unmlq_left (t := false) (ib := ib) (F := F) (T' := T') (off' := off') false hA hB hAm hAn hBm hAF hBF hAB hTi
      (ops_inB ho) hT s1 hr hc
    rw [hB1] at this
    exact this
  have hA3 : A.el (texec (pztrsm dv .left .lower .conjTrans .nonUnit 1 (A.sub 0 0 m m) (B.sub 0 0 m B.d.n)) s2) = A.el s2 :=
    trsm_A (TMat.sub_al hB ..) hAB s2
  have hAe : ofE m n (A.el s) = ofE m n (tril (A.el s1)) * Q := ofE_rmul f2
  have hR : ∀ (i : Fin n) (j : Fin m), (j : Nat) < i → (ofE m n (tril (A.el s1)))ᴴ i j = 0 := fun i j h => by
    show star (tril (A.el s1) j i) = 0
    unfold tril
    rw [if_neg (by omega), star_zero]
  have hQ' : Qᴴ ∈ unitaryGroup (Fin n) 𝕜 := Unitary.star_mem f1
  refine ⟨⟨Q, f1, by rw [hA3, hA2]; exact hAe.symm⟩, fun c hc => ?_⟩
  exact over_core hn hQ' hR (by rw [hAe, conjTranspose_mul]) hr hA hB hAB s2 (fun i l => by
    rw [hA2]; exact congrArg star (trE_tril ..)) hc (fun i => by
    rw [hB2 i c i.2 hc, lmul_mulVec, conjTranspose_conjTranspose]) hdv

theorem lqUnder_el (hn : m ≤ n) (hBm : B.d.m = n) (hi : B.d.i = 0) (hj : B.d.j = 0)
    (hr : FullColRank (ofE m n (A.el s))ᴴ) :
    (∃ Q ∈ unitaryGroup (Fin n) 𝕜, ofE m n (tril (A.el (texec (lqUnder K dv ib off ops A T B) s))) * Q = ofE m n (A.el s)) ∧
    ∀ c, c < B.d.n → IsMinNorm (ofE m n (A.el s)) (fun i => B.el s i c)
        (fun i => B.el (texec (lqUnder K dv ib off ops A T B) s) i c) := by
  obtain ⟨f1, f2⟩ := lfac_ok hK hib hA hAm hAn hAF ho hnd hTi hT s hz
  have hB1 : B.el (texec (ops.flatMap (lfacT K ib off A T)) s) = B.el s :=
    el_frame lfac_writes (fun q q' h => h.elim hAB.symm (by rw [hTT]; exact hBF)) s
  unfold lqUnder
  rw [texec_append, texec_append, texec_append, hAn, hAm]
  set s1 := texec (ops.flatMap (lfacT K ib off A T)) s with hs1
  set Q := lqAll F b m n ib off' A T' s1 ops with hQ
  have w2 : Writes (fun x => x.1 = B.id) (pzlaset (α := 𝕜) none 0 0 (B.sub m 0 (B.d.m - m) B.d.n)) := laset_sub_ws hB hi hj
  have hB2 : ∀ r c, r < B.d.m → c < B.d.n → B.el (texec (pzlaset none 0 0 (B.sub m 0 (B.d.m - m) B.d.n)) s1) r c =
      if m ≤ r then 0 else B.el s r c := by
    intro r c hr hc
    rw [laset_sub_el hB hi hj s1 hr hc, hB1]
  rw [hBm] at w2 hB2
  set s2 := texec (pzlaset none 0 0 (B.sub m 0 (n - m) B.d.n)) s1 with hs2
  have hA2 : A.el s2 = A.el s1 := el_frame w2 (fun q q' h => hAB h) s1
  have hBB : (B.sub 0 0 m B.d.n).Al b := TMat.sub_al hB ..
  set s3 := texec (pztrsm dv .left .lower .noTrans .nonUnit 1 (A.sub 0 0 m m) (B.sub 0 0 m B.d.n)) s2 with hs3
  have hA3 : A.el s3 = A.el s2 := trsm_A hBB hAB s2
  have hT3 : ∀ x i j, x.1 = T.id → s3 x i j = s1 x i j := by
    intro x i j hx
    rw [hs3, (pztrsm_writes hBB rfl rfl).frame s2 (by rw [hx, hTT]; exact hBF.symm), hs2,
      w2.frame s1 (by rw [hx, hTT]; exact hBF.symm)]
  have hA4 : A.el (texec (ops.reverse.flatMap (lupdL false true ib off A T B (List.range B.d.nt))) s3) = A.el s3 :=
    el_frame lupdL_ws (fun q q' h => hAB h) s3
  have hQ3 : lqAll F b m n ib off' A T' s3 ops = Q := by
    refine lqAll_agree hA hA hAF hAF (ops_inB ho) hT hT (fun r c _ _ => by rw [hA3, hA2]) fun o ho i j hi hj => hT3 _ i j ?_
    cases o <;> rfl
  have hAe : ofE m n (A.el s) = ofE m n (tril (A.el s1)) * Q := ofE_rmul f2
  have hR : ∀ (i : Fin n) (j : Fin m), (j : Nat) < i → (ofE m n (tril (A.el s1)))ᴴ i j = 0 := fun i j h => by
    show star (tril (A.el s1) j i) = 0
    unfold tril
    rw [if_neg (by omega), star_zero]
  have hQ' : Qᴴ ∈ unitaryGroup (Fin n) 𝕜 := Unitary.star_mem f1
  refine ⟨⟨Q, f1, by rw [hA4, hA3, hA2]; exact hAe.symm⟩, fun c hc => ?_⟩
  have := under_core (rhs := fun i => B.el s i c) (F := (ofE m n (A.el s))ᴴ) hn hQ' hR (by rw [hAe, conjTranspose_mul]) hr
    hA hB hAB s2 (u := .lower)
    (t := .noTrans) (fun i l => ?_) hc (fun i => ?_) (fun i hi => ?_) hdv (x := fun i => B.el
      (texec (ops.reverse.flatMap (lupdL false true ib off A T B (List.range B.d.nt))) s3) i c) ?_
  · rw [conjTranspose_conjTranspose] at this
    exact this
  · rw [hA2]
    refine (trE_tril ..).trans ?_
    show _ = star (star (tril (A.el s1) i l))
    rw [star_star]
  · rw [hB2 i c (by omega) hc, if_neg (by omega)]
  · rw [hB2 i c i.2 hc, if_pos hi]
  · funext i
    have := unmlq_left (t := true) (ib := ib) (F := F) (T' := T') (off' := off') false hA hB hAm hAn hBm hAF hBF hAB hTi
      (ops_inB ho) hT s3 i.2 hc
    rw [hQ3, lmul_mulVec] at this
    exact this

end

end Verif.Ls

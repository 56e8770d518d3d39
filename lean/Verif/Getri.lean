/-
The tile algorithm `plasma_pzgetri_aux` (compute/pzgetri_aux.c), which solves
`X*L = U^{-1}` for `X` with `U^{-1}` and `L` stored in one matrix.
-/
import Verif.LuSolve
import Verif.AuxNests
import Verif.Trmm
import Verif.GExec

set_option linter.unusedSectionVars false

namespace Verif.Tile

open Verif.Layout Verif.LU Finset

universe u v w

section
variable {M : Type u} [DecidableEq M] {α : Type v} [Field α] [StarRing α] [DecidableEq α] (dv : α → α → α)
  (A W : TMat M)

/-- A task created without a test of the status (`plasma_core_omp_zlaset`,
core_blas/core_zlaset.c:57-84, has no sequence argument). -/
def freeT (t : TTask (M × Nat × Nat) α) : GTTask (M × Nat × Nat) α := { task := t, guard := false, code := fun _ => 0 }

/-- First part of step `k` of `plasma_pzgetri_aux` (compute/pzgetri_aux.c:41-70): the column `k`
of `L` is saved in `W` and replaced by zeros. -/
def giCopy (k : Nat) : List (GTTask (M × Nat × Nat) α) :=
  (okT [coreLacpy (some .lower) .noTrans (A.d.mview k) (A.d.nview k) (A.at' k k) (W.at' k 0)] ++
    [freeT (coreLaset (some .lower) 1 0 (A.d.nview k - 1) (A.d.nview k - 1) 0 0 (A.at' k k))]) ++
  (span (k + 1) A.d.mt).flatMap fun m =>
    okT [coreLacpy none .noTrans (A.d.mview m) (A.d.nview k) (A.at' m k) (W.at' m 0)] ++
      [freeT (coreLaset none 0 0 (A.d.mview m) (A.d.nview k) 0 0 (A.at' m k))]

/-- Second part (compute/pzgetri_aux.c:72-87). -/
def giGemm (k : Nat) : List (TTask (M × Nat × Nat) α) :=
  (List.range A.d.mt).flatMap fun m => (span (k + 1) A.d.nt).map fun n =>
    coreGemm .noTrans .noTrans (A.d.mview m) (A.d.nview k) (A.d.nview n) (-1) (A.at' m n) (W.at' n 0) 1 (A.at' m k)

/-- Third part (compute/pzgetri_aux.c:89-100). -/
def giTrsm (k : Nat) : List (TTask (M × Nat × Nat) α) :=
  (List.range A.d.mt).flatMap fun m =>
    [coreTrsm dv .right .lower .noTrans .unit (A.d.mview m) (A.d.nview k) 1 (W.at' k 0) (A.at' m k)]

/-- `plasma_pzgetri_aux` (compute/pzgetri_aux.c:27-102). -/
def pzgetriAux : List (GTTask (M × Nat × Nat) α) :=
  (List.range A.d.mt).reverse.flatMap fun k => giCopy A W k ++ okT (giGemm A W k ++ giTrsm dv A W k)

end

section
variable {M : Type u} [DecidableEq M] {α : Type v} [Field α] [StarRing α] [DecidableEq α] {dv : α → α → α}
  {A W : TMat M} {b n k : Nat}

/-- Hypotheses on the operands: `A` is square with aligned tiles, `W` is another matrix. -/
structure GiOK (b n : Nat) (A W : TMat M) : Prop where
  al : A.Al b
  m : A.d.m = n
  n : A.d.n = n
  ne : A.id ≠ W.id

theorem GiOK.mt (h : GiOK b n A W) : A.d.mt = ceilDiv n b := by rw [h.al.mt_eq, h.m]
theorem GiOK.nt (h : GiOK b n A W) : A.d.nt = ceilDiv n b := by rw [h.al.nt_eq, h.n]
theorem GiOK.mv (h : GiOK b n A W) {k : Nat} (hk : k < A.d.mt) : A.d.mview k = tdim n b k := by
  rw [h.al.mview hk, h.m]
theorem GiOK.nv (h : GiOK b n A W) {k : Nat} (hk : k < A.d.mt) : A.d.nview k = tdim n b k := by
  rw [h.al.nview (by rw [h.nt, ← h.mt]; exact hk), h.n]
theorem GiOK.aw (h : GiOK b n A W) (i j i' j' : Nat) : A.at' i j ≠ W.at' i' j' := fun e => h.ne (congrArg Prod.fst e)

/-- Tasks of the first part. -/
def giCopyT (A W : TMat M) (k : Nat) : List (TTask (M × Nat × Nat) α) :=
  [coreLacpy (some .lower) .noTrans (A.d.mview k) (A.d.nview k) (A.at' k k) (W.at' k 0),
    coreLaset (some .lower) 1 0 (A.d.nview k - 1) (A.d.nview k - 1) 0 0 (A.at' k k)] ++
  (span (k + 1) A.d.mt).flatMap fun m =>
    [coreLacpy none .noTrans (A.d.mview m) (A.d.nview k) (A.at' m k) (W.at' m 0),
      coreLaset none 0 0 (A.d.mview m) (A.d.nview k) 0 0 (A.at' m k)]

theorem tasks_giCopy : tasks (giCopy (α := α) A W k) = giCopyT A W k := by
  unfold giCopy giCopyT
  rw [tasks_append, tasks_append, tasks_flatMap, tasks_okT]
  congr 1

theorem tasks_pzgetriAux : tasks (pzgetriAux dv A W) =
    (List.range A.d.mt).reverse.flatMap fun k => giCopyT A W k ++ (giGemm A W k ++ giTrsm dv A W k) := by
  unfold pzgetriAux
  rw [tasks_flatMap]
  congr 1
  funext k
  rw [tasks_append, tasks_giCopy, tasks_okT]

/-- Tiles touched for row `m` in the first part. -/
def giCW (A W : TMat M) (k m : Nat) (x : M × Nat × Nat) : Prop := x = A.at' m k ∨ x = W.at' m 0

/-- The two tasks for row `m`. -/
def giPair (A W : TMat M) (k m : Nat) : List (TTask (M × Nat × Nat) α) :=
  if m = k then
    [coreLacpy (some .lower) .noTrans (A.d.mview k) (A.d.nview k) (A.at' k k) (W.at' k 0),
      coreLaset (some .lower) 1 0 (A.d.nview k - 1) (A.d.nview k - 1) 0 0 (A.at' k k)]
  else
    [coreLacpy none .noTrans (A.d.mview m) (A.d.nview k) (A.at' m k) (W.at' m 0),
      coreLaset none 0 0 (A.d.mview m) (A.d.nview k) 0 0 (A.at' m k)]

theorem giCopyT_eq (hk : k < A.d.mt) : giCopyT (α := α) A W k = (span k A.d.mt).flatMap (giPair A W k) := by
  rw [span_cons hk, List.flatMap_cons]
  unfold giCopyT
  rw [show giPair (α := α) A W k k = _ from if_pos rfl]
  congr 1
  rw [List.flatMap_def, List.flatMap_def]
  congr 1
  refine List.map_congr_left fun m hm => ?_
  rw [mem_span] at hm
  exact (if_neg (show ¬ m = k by omega)).symm

theorem giPair_writes {m : Nat} : Writes (α := α) (giCW A W k m) (giPair A W k m) := by
  unfold giPair
  split
  · rename_i h; subst h
    exact Writes.cons (writes_op1 (Or.inr rfl)) (writes_op0 (Or.inl rfl))
  · exact Writes.cons (writes_op1 (Or.inr rfl)) (writes_op0 (Or.inl rfl))

theorem giPair_within {m : Nat} : Within (α := α) (giCW A W k m) (giPair A W k m) := by
  unfold giPair
  split
  · rename_i h; subst h
    exact Within.cons (Within.op1 coreLacpy_local (Or.inl rfl) (Or.inr rfl)) (Within.op0 coreLaset_local (Or.inl rfl))
  · exact Within.cons (Within.op1 coreLacpy_local (Or.inl rfl) (Or.inr rfl)) (Within.op0 coreLaset_local (Or.inl rfl))

theorem giCopy_row (h : GiOK b n A W) (hk : k < A.d.mt) (s : Store (M × Nat × Nat) α) {m : Nat} (hm : k ≤ m)
    (hm' : m < A.d.mt) {x : M × Nat × Nat} (hx : giCW A W k m x) :
    texec (giCopyT A W k) s x = texec (giPair A W k m) s x := by
  rw [giCopyT_eq hk]
  refine texec_indep nodup_span (D := giCW A W k) (fun _ _ => giPair_within) ?_ s (mem_span.mpr ⟨hm, hm'⟩) hx
  intro p _ q _ hpq
  refine giPair_writes.mono ?_
  rintro x (rfl | rfl) (e | e)
  · exact hpq (TMat.at'_inj.mp e).1
  · exact h.aw _ _ _ _ e
  · exact h.aw _ _ _ _ e.symm
  · exact hpq (TMat.at'_inj.mp e).1

theorem giCopy_frame (hk : k < A.d.mt) (s : Store (M × Nat × Nat) α) {x : M × Nat × Nat} (hw : x.1 ≠ W.id)
    (ha : ∀ m, k ≤ m → x ≠ A.at' m k) : texec (giCopyT A W k) s x = s x := by
  rw [giCopyT_eq hk]
  refine (Writes.flatMap (W := fun x => x.1 = W.id ∨ ∃ m, k ≤ m ∧ x = A.at' m k) fun m hm => giPair_writes.mono ?_).frame s ?_
  · rintro x (rfl | rfl)
    · exact Or.inr ⟨m, (mem_span.mp hm).1, rfl⟩
    · exact Or.inl rfl
  · rintro (e | ⟨m, hm, e⟩)
    · exact hw e
    · exact ha m hm e

theorem giPair_eff (h : GiOK b n A W) (hk : k < A.d.mt) (s : Store (M × Nat × Nat) α) {m : Nat} (hm : k ≤ m)
    (hm' : m < A.d.mt) {i j : Nat} (hi : i < tdim n b m) (hj : j < tdim n b k) :
    (m = k → j ≤ i) → texec (giPair A W k m) s (W.at' m 0) i j = s (A.at' m k) i j := by
  intro hd
  unfold giPair
  split
  · rename_i e; subst e
    rw [texec_cons, texec_cons, texec_nil]
    rw [show (coreLaset (some .lower) 1 0 (A.d.nview m - 1) (A.d.nview m - 1) (0 : α) 0 (A.at' m m)).run _ (W.at' m 0) = _
      from op0_ne _ (h.aw _ _ _ _).symm]
    rw [coreLacpy_run (Or.inl rfl) s (by rw [if_pos rfl, h.mv hm', h.nv hm']; exact ⟨hi, hj⟩)]
    rw [if_pos (show stOK (stTr .noTrans (some .lower)) i j from hd rfl)]
    rfl
  · rw [texec_cons, texec_cons, texec_nil]
    rw [show (coreLaset none 0 0 (A.d.mview m) (A.d.nview k) (0 : α) 0 (A.at' m k)).run _ (W.at' m 0) = _
      from op0_ne _ (h.aw _ _ _ _).symm]
    rw [coreLacpy_run (Or.inl rfl) s (by rw [if_pos rfl, h.mv hm', h.nv hk]; exact ⟨hi, hj⟩)]
    rw [if_pos (show stOK (stTr .noTrans none) i j from trivial)]
    rfl

theorem giPair_zero (h : GiOK b n A W) (hk : k < A.d.mt) (s : Store (M × Nat × Nat) α) {m : Nat} (hm : k ≤ m)
    (hm' : m < A.d.mt) {i j : Nat} (hi : i < tdim n b m) (hj : j < tdim n b k) :
    texec (giPair A W k m) s (A.at' m k) i j = if m = k ∧ i ≤ j then s (A.at' m k) i j else 0 := by
  unfold giPair
  split
  · rename_i e; subst e
    rw [texec_cons, texec_cons, texec_nil]
    unfold coreLaset
    rw [op0_self]
    have e1 : (coreLacpy (some .lower) .noTrans (A.d.mview m) (A.d.nview m) (A.at' m m) (W.at' m 0)).run s (A.at' m m) =
      s (A.at' m m) := op1_ne _ (h.aw _ _ _ _)
    by_cases hij : i ≤ j
    · rw [if_pos ⟨rfl, hij⟩, paste_out, e1]
      rintro ⟨h1, h2, h3, h4, h5⟩
      have : j - 0 ≤ i - 1 := h5
      omega
    · rw [if_neg (fun h => hij h.2), paste_in]
      · simp
      · refine ⟨by omega, by rw [h.nv hm']; omega, Nat.zero_le _, by rw [h.nv hm']; omega, ?_⟩
        show j - 0 ≤ i - 1
        omega
  · rename_i e
    rw [texec_cons, texec_cons, texec_nil, coreLaset_run _ (by rw [h.mv hm', h.nv hk]; exact ⟨hi, hj⟩),
      if_pos (show stOK none i j from trivial), if_neg (show ¬ (m = k ∧ i ≤ j) from fun h => e h.1)]
    simp

/-! ### One step -/

theorem giGemm_writes : Writes (α := α) (fun x => ∃ m, x = A.at' m k) (giGemm A W k) := by
  unfold giGemm
  exact Writes.flatMap fun m _ => Writes.map fun q _ => writes_op2 ⟨m, rfl⟩

theorem giTrsm_writes : Writes (α := α) (fun x => ∃ m, x = A.at' m k) (giTrsm dv A W k) := by
  unfold giTrsm
  exact Writes.flatMap fun m _ => writes_op1 ⟨m, rfl⟩

theorem giGemm_tile (h : GiOK b n A W) (hk : k < A.d.mt) (s : Store (M × Nat × Nat) α) {m : Nat} (hm : m < A.d.mt)
    {i j : Nat} (hi : i < tdim n b m) (hj : j < tdim n b k) :
    texec (giGemm A W k) s (A.at' m k) i j = s (A.at' m k) i j +
      ((span (k + 1) A.d.nt).map fun q => - ∑ l ∈ range (tdim n b q), s (A.at' m q) i l * s (W.at' q 0) l j).sum := by
  unfold giGemm
  have hne : ∀ q ∈ span (k + 1) A.d.nt, ∀ m m', A.at' m q ≠ A.at' m' k := by
    intro q hq m m' e
    rw [mem_span] at hq
    have := (TMat.at'_inj.mp e).2; omega
  rw [par_init (R := (· ≠ ·)) (o := fun m => A.at' m k)
    (D := fun m x => x = A.at' m k ∨ x.1 = W.id ∨ ∃ q, k < q ∧ x = A.at' m q) List.nodup_range (fun _ => Or.inl rfl) ?_ ?_ ?_ s
    (List.mem_range.mpr hm)]
  · refine acc_list (fun q => writes_op2 rfl) s _ ?_ s fun _ _ => rfl
    intro q hq s' hs'
    refine Eq.trans (gemm_run (ta := .noTrans) (tb := .noTrans) (alpha := -1) (beta := 1) s'
      (by rw [h.mv hm, h.nv hk]; exact ⟨hi, hj⟩)) ?_
    rw [hs' _ (hne q hq _ _), hs' _ (h.aw _ _ _ _).symm,
      h.nv (by rw [h.mt, ← h.nt]; exact (mem_span.mp hq).2)]
    simp [opE]
  · rintro p q hpq (e | e | ⟨c, hc, e⟩)
    · exact hpq (TMat.at'_inj.mp e).1
    · exact h.ne e
    · have := (TMat.at'_inj.mp e).2; omega
  · intro p _
    exact Within.map fun q hq => gemm_within (Or.inr (Or.inr ⟨q, (mem_span.mp hq).1, rfl⟩)) (Or.inr (Or.inl rfl)) (Or.inl rfl)
  · intro p _
    exact Writes.map fun q _ => writes_op2 rfl

theorem giTrsm_tile (h : GiOK b n A W) (s : Store (M × Nat × Nat) α) {m : Nat} (hm : m < A.d.mt) {i j : Nat}
    (hij : box (A.d.mview m) (A.d.nview k) i j) :
    texec (giTrsm dv A W k) s (A.at' m k) i j =
      trsmK dv .right .lower .noTrans .unit (A.d.mview m) (A.d.nview k) 1 (s (W.at' k 0)) (s (A.at' m k)) i j := by
  unfold giTrsm
  rw [par_init (R := (· ≠ ·)) (o := fun m => A.at' m k)
    (D := fun m x => x = A.at' m k ∨ x.1 = W.id) List.nodup_range (fun _ => Or.inl rfl) ?_ ?_ ?_ s
    (List.mem_range.mpr hm)]
  · rw [texec_cons, texec_nil, coreTrsm_run _ hij]
  · rintro p q hpq (e | e)
    · exact hpq (TMat.at'_inj.mp e).1
    · exact h.ne e
  · intro p _
    exact Within.op1 coreTrsm_local (Or.inr rfl) (Or.inl rfl)
  · intro p _
    exact writes_op1 rfl

/-- Tasks of step `k`. -/
def giStep (dv : α → α → α) (A W : TMat M) (k : Nat) : List (TTask (M × Nat × Nat) α) :=
  giCopyT A W k ++ (giGemm A W k ++ giTrsm dv A W k)

theorem giStep_frame (hk : k < A.d.mt) (s : Store (M × Nat × Nat) α) {x : M × Nat × Nat} (hw : x.1 ≠ W.id)
    (ha : ∀ m, x ≠ A.at' m k) : texec (giStep dv A W k) s x = s x := by
  unfold giStep
  rw [texec_append, texec_append, giTrsm_writes.frame _ (fun ⟨m, e⟩ => ha m e),
    giGemm_writes.frame _ (fun ⟨m, e⟩ => ha m e), giCopy_frame hk s hw fun m _ => ha m]

theorem giStep_col (h : GiOK b n A W) (hk : k < A.d.mt) (s : Store (M × Nat × Nat) α) {r c : Nat} (hc : c / b ≠ k) :
    A.el (texec (giStep dv A W k) s) r c = A.el s r c := by
  simp only [TMat.el, h.al.mb, h.al.nb]
  rw [giStep_frame hk s h.ne]
  intro m e
  exact hc (TMat.at'_inj.mp e).2

theorem sum_span {β : Type w} [AddCommMonoid β] (lo hi : Nat) (F : Nat → β) :
    ((span lo hi).map F).sum = ∑ t ∈ Ico lo hi, F t := rfl

theorem luL_tile {X : Nat → Nat → α} {l c : Nat} (h : c < l) : luL X l c = X l c := by
  unfold luL; rw [if_pos h]

/-- **One step.**  `Y*L = U` in the columns of tile column `k`, for `L` and `U` stored in `A`. -/
theorem giStep_el (hdv : IsDiv dv) (h : GiOK b n A W) (hk : k < A.d.mt) (s : Store (M × Nat × Nat) α) {r c : Nat}
    (hr : r < n) (hc : c < n) (hck : c / b = k) :
    ∑ l ∈ range n, A.el (texec (giStep dv A W k) s) r l * luL (A.el s) l c = luU (A.el s) r c := by
  have hb := h.al.pos
  have hm : r / b < A.d.mt := h.al.row_mt (by rw [h.m]; exact hr)
  set m := r / b with hmd
  set i := r % b with hid
  set j := c % b with hjd
  have hrd : r = m * b + i := (divmod r b).symm
  have hcd : c = k * b + j := by rw [← hck]; exact (divmod c b).symm
  have hib : i < b := Nat.mod_lt _ hb
  have hjb : j < b := Nat.mod_lt _ hb
  have hi : i < tdim n b m := mod_lt_tdim hb hr
  have hj : j < tdim n b k := by rw [← hck]; exact mod_lt_tdim hb hc
  set s1 := texec (giCopyT A W k) s with hs1
  set s2 := texec (giGemm A W k) s1 with hs2
  set s3 := texec (giStep dv A W k) s with hs3
  have e3 : s3 = texec (giTrsm dv A W k) s2 := by rw [hs3, hs2, hs1]; unfold giStep; rw [texec_append, texec_append]
  -- the saved factor
  have hW2 : ∀ q i j, s2 (W.at' q 0) i j = s1 (W.at' q 0) i j := by
    intro q i j
    rw [hs2, giGemm_writes.frame s1 (fun ⟨m, e⟩ => h.aw _ _ _ _ e.symm)]
  have hW1 : ∀ q, k ≤ q → q < A.d.mt → ∀ i j, i < tdim n b q → j < tdim n b k → (q = k → j ≤ i) →
      s1 (W.at' q 0) i j = s (A.at' q k) i j := by
    intro q hq hq' i j hi hj hd
    rw [hs1, giCopy_row h hk s hq hq' (Or.inr rfl), giPair_eff h hk s hq hq' hi hj hd]
  have hL : ∀ q, k ≤ q → q < A.d.mt → ∀ l, l < tdim n b q → (q = k → j < l) →
      luL (A.el s) (q * b + l) c = s1 (W.at' q 0) l j := by
    intro q hq hq' l hl hd
    have hlb : l < b := lt_of_lt_of_le hl (by unfold tdim; omega)
    have hlt : c < q * b + l := by
      rw [hcd]
      rcases Nat.eq_or_lt_of_le hq with e | e
      · subst e; have := hd rfl; omega
      · have : (k + 1) * b ≤ q * b := Nat.mul_le_mul_right _ e
        rw [Nat.add_mul] at this; omega
    rw [luL_tile hlt, hW1 q hq hq' l j hl hj (fun e => Nat.le_of_lt (hd e)), hcd, h.al.el_tile s hlb hjb]
  -- the update
  have hA2 : s2 (A.at' m k) i j = luU (A.el s) r c -
      ∑ q ∈ Ico (k + 1) A.d.nt, ∑ l ∈ range (tdim n b q), s1 (A.at' m q) i l * s1 (W.at' q 0) l j := by
    rw [hs2, giGemm_tile h hk s1 hm hi hj, sum_span, Finset.sum_neg_distrib, sub_eq_add_neg]
    congr 1
    rw [hs1]
    unfold luU
    by_cases hmk : k ≤ m
    · rw [giCopy_row h hk s hmk hm (Or.inl rfl), giPair_zero h hk s hmk hm hi hj]
      by_cases hrc : r ≤ c
      · have hrc' : m = k ∧ i ≤ j := by
          rcases Nat.eq_or_lt_of_le hmk with e | e
          · subst e; exact ⟨rfl, by omega⟩
          · have : (k + 1) * b ≤ m * b := Nat.mul_le_mul_right _ e
            rw [Nat.add_mul] at this; omega
        rw [if_pos hrc', if_pos hrc]
        rw [hrd, hcd, h.al.el_tile s hib hjb]
      · have hrc' : ¬ (m = k ∧ i ≤ j) := by
          rintro ⟨e, e'⟩; rw [e] at hrd; omega
        rw [if_neg hrc', if_neg hrc]
    · have : (m + 1) * b ≤ k * b := Nat.mul_le_mul_right _ (by omega)
      rw [Nat.add_mul] at this
      rw [giCopy_frame hk s h.ne, if_pos (by omega)]
      · rw [hrd, hcd, h.al.el_tile s hib hjb]
      · intro q hq e
        have := (TMat.at'_inj.mp e).1; omega
  have hA3 : ∀ q, k < q → s3 (A.at' m q) = s1 (A.at' m q) := by
    intro q hq
    have hq' : ∀ m', A.at' m q ≠ A.at' m' k := fun m' e => by have := (TMat.at'_inj.mp e).2; omega
    rw [e3, giTrsm_writes.frame s2 (fun ⟨m', e⟩ => hq' m' e), hs2, giGemm_writes.frame s1 (fun ⟨m', e⟩ => hq' m' e)]
  -- the triangular solve
  have hsp := trsmK_spec (sd := .right) (u := .lower) (t := .noTrans) (d := .unit) (m := A.d.mview m) (n := A.d.nview k)
    hdv (one_ne_zero (α := α)) (X := s2 (W.at' k 0)) (Y := s2 (A.at' m k)) (fun i _ => by simp [trE]) (r := j) (c := i)
    (by unfold trN; simp only [reduceCtorEq, if_false]; rw [h.nv hk]; exact hj)
  unfold trN trT trEl at hsp
  simp only [reduceCtorEq, if_false, one_mul, opE] at hsp
  rw [h.nv hk, h.mv hm] at hsp
  have hdiag : ∑ l ∈ range (tdim n b k), s3 (A.at' m k) i l * luL (A.el s) (k * b + l) c = s2 (A.at' m k) i j := by
    rw [← hsp]
    refine sum_congr rfl fun l hl => ?_
    rw [mem_range] at hl
    have hl' := hl
    have hlb : l < b := lt_of_lt_of_le hl (by unfold tdim; omega)
    rw [e3, giTrsm_tile h s2 hm (by rw [h.mv hm, h.nv hk]; exact ⟨hi, hl⟩), h.nv hk, h.mv hm, mul_comm]
    congr 1
    rcases Nat.lt_trichotomy l j with e | e | e
    · rw [trE_out (by simp only [inTri]; omega)]
      unfold luL
      rw [if_neg (by omega), if_neg (by omega)]
    · subst e
      unfold luL trE
      rw [if_neg (by omega), if_pos (by omega)]
      simp
    · rw [hL k (le_refl k) hk l hl (fun _ => e), ← hW2]
      unfold trE
      rw [if_neg (by omega), if_pos (by simp only [inTri]; omega)]
  -- all tiles
  have hel : ∀ q l, l < b → A.el s3 r (q * b + l) = s3 (A.at' m q) i l := by
    intro q l hl
    rw [hrd, h.al.el_tile s3 hib hl]
  rw [← sum_tiles hb]
  have hzero : ∀ q ∈ range k, ∑ l ∈ range (tdim n b q), A.el s3 r (q * b + l) * luL (A.el s) (q * b + l) c = 0 := by
    intro q hq
    refine sum_eq_zero fun l hl => ?_
    rw [mem_range] at hq hl
    have hlb : l < b := lt_of_lt_of_le hl (by unfold tdim; omega)
    have : (q + 1) * b ≤ k * b := Nat.mul_le_mul_right _ hq
    rw [Nat.add_mul] at this
    unfold luL
    rw [if_neg (by omega), if_neg (by omega), mul_zero]
  rw [← h.nt, ← Finset.sum_range_add_sum_Ico _ (show k ≤ A.d.nt by rw [h.nt, ← h.mt]; omega), sum_eq_zero hzero, zero_add,
    Finset.sum_eq_sum_Ico_succ_bot (show k < A.d.nt by rw [h.nt, ← h.mt]; omega)]
  have hd2 : ∑ l ∈ range (tdim n b k), A.el s3 r (k * b + l) * luL (A.el s) (k * b + l) c = s2 (A.at' m k) i j := by
    rw [← hdiag]
    refine sum_congr rfl fun l hl => ?_
    rw [mem_range] at hl
    rw [hel k l (lt_of_lt_of_le hl (by unfold tdim; omega))]
  rw [hd2, hA2]
  have hrest : ∑ q ∈ Ico (k + 1) A.d.nt, ∑ l ∈ range (tdim n b q), A.el s3 r (q * b + l) * luL (A.el s) (q * b + l) c =
      ∑ q ∈ Ico (k + 1) A.d.nt, ∑ l ∈ range (tdim n b q), s1 (A.at' m q) i l * s1 (W.at' q 0) l j := by
    refine sum_congr rfl fun q hq => sum_congr rfl fun l hl => ?_
    rw [mem_Ico] at hq
    rw [mem_range] at hl
    rw [hel q l (lt_of_lt_of_le hl (by unfold tdim; omega)), hA3 q (by omega),
      hL q (by omega) (by rw [h.mt, ← h.nt]; exact hq.2) l hl (by omega)]
  rw [hrest, sub_add_cancel]

/-! ### The whole algorithm -/

theorem giSteps_el (hdv : IsDiv dv) (h : GiOK b n A W) {K : Nat} (hK : K ≤ A.d.mt) (s : Store (M × Nat × Nat) α) :
    (∀ r c, K ≤ c / b → A.el (texec ((List.range K).reverse.flatMap (giStep dv A W)) s) r c = A.el s r c) ∧
    (∀ r c, r < n → c < n → c / b < K →
      ∑ l ∈ range n, A.el (texec ((List.range K).reverse.flatMap (giStep dv A W)) s) r l * luL (A.el s) l c =
        luU (A.el s) r c) := by
  have hb := h.al.pos
  induction K generalizing s with
  | zero => exact ⟨fun r c _ => rfl, fun r c _ _ h => absurd h (Nat.not_lt_zero _)⟩
  | succ K ih =>
    have e : (List.range (K + 1)).reverse.flatMap (giStep dv A W) =
        giStep dv A W K ++ (List.range K).reverse.flatMap (giStep dv A W) := by
      rw [List.range_succ, List.reverse_append]; simp
    rw [e, texec_append]
    obtain ⟨i1, i2⟩ := ih (by omega) (texec (giStep dv A W K) s)
    have hcol : ∀ r c, c / b ≠ K → A.el (texec (giStep dv A W K) s) r c = A.el s r c := fun r c hc =>
      giStep_col h hK s hc
    refine ⟨fun r c hc => by rw [i1 r c (by omega), hcol r c (by omega)], fun r c hr hc hcK => ?_⟩
    by_cases hce : c / b = K
    · rw [← giStep_el hdv h hK s hr hc hce]
      refine sum_congr rfl fun l _ => ?_
      by_cases hl : K ≤ l / b
      · rw [i1 r l hl]
      · have hlc : l < c := by
          by_contra hlc
          have := Nat.div_le_div_right (c := b) (Nat.le_of_not_lt hlc)
          omega
        unfold luL
        rw [if_neg (by omega), if_neg (by omega), mul_zero, mul_zero]
    · have := i2 r c hr hc (by omega)
      rw [show luU (A.el (texec (giStep dv A W K) s)) r c = luU (A.el s) r c by
        unfold luU; rw [hcol r c hce]] at this
      rw [← this]
      refine sum_congr rfl fun l _ => ?_
      congr 1
      unfold luL
      rw [hcol l c hce]

/-- **`plasma_pzgetri_aux`.** `X*L = U` for the factors `L` and `U` stored in `A` before. -/
theorem pzgetriAux_el (hdv : IsDiv dv) (h : GiOK b n A W) (s : Store (M × Nat × Nat) α) {r c : Nat} (hr : r < n)
    (hc : c < n) :
    ∑ l ∈ range n, A.el (texec (tasks (pzgetriAux dv A W)) s) r l * luL (A.el s) l c = luU (A.el s) r c := by
  rw [tasks_pzgetriAux]
  exact (giSteps_el hdv h (le_refl _) s).2 r c hr hc (by
    have := h.al.col_nt (r := c) (by rw [h.n]; exact hc)
    rwa [h.nt, ← h.mt] at this)

/-! ### Footprints and dependences -/

theorem giCopyT_writes (hk : k < A.d.mt) : Writes (α := α) (fun x => x.1 = A.id ∨ x.1 = W.id) (giCopyT A W k) := by
  rw [giCopyT_eq hk]
  refine Writes.flatMap fun m _ => giPair_writes.mono ?_
  rintro x (rfl | rfl)
  · exact Or.inl rfl
  · exact Or.inr rfl

theorem giStep_writes (hk : k < A.d.mt) : Writes (α := α) (fun x => x.1 = A.id ∨ x.1 = W.id) (giStep dv A W k) := by
  unfold giStep
  refine (giCopyT_writes hk).append (giGemm_writes.append giTrsm_writes |>.mono ?_)
  rintro x ⟨m, rfl⟩; exact Or.inl rfl

theorem pzgetriAux_writes : Writes (α := α) (fun x => x.1 = A.id ∨ x.1 = W.id) (tasks (pzgetriAux dv A W)) := by
  rw [tasks_pzgetriAux]
  exact Writes.flatMap fun k hk => giStep_writes (List.mem_range.mp (List.mem_reverse.mp hk))

theorem freeT_codeOK (t : TTask (M × Nat × Nat) α) : CodeOK [freeT t] := by
  constructor
  · intro t' ht s s' _
    rw [List.mem_singleton] at ht; subst ht; rfl
  · intro t' ht _ s
    rw [List.mem_singleton] at ht; subst ht; rfl

theorem pzgetriAux_codeOK : CodeOK (pzgetriAux dv A W) := by
  unfold pzgetriAux giCopy
  exact CodeOK.flatMap fun k _ => (((CodeOK.ok _).append (freeT_codeOK _)).append
    (CodeOK.flatMap fun m _ => (CodeOK.ok _).append (freeT_codeOK _))).append (CodeOK.ok _)

theorem pzgetriAux_safe : Safe (pzgetriAux dv A W) := by
  intro t ht s
  unfold pzgetriAux giCopy at ht
  obtain ⟨k, _, ht⟩ := List.mem_flatMap.mp ht
  rcases List.mem_append.mp ht with ht | ht
  · rcases List.mem_append.mp ht with ht | ht
    · rcases List.mem_append.mp ht with ht | ht
      · exact safe_ok _ t ht s
      · rw [List.mem_singleton] at ht; subst ht; rfl
    · obtain ⟨m, _, ht⟩ := List.mem_flatMap.mp ht
      rcases List.mem_append.mp ht with ht | ht
      · exact safe_ok _ t ht s
      · rw [List.mem_singleton] at ht; subst ht; rfl
  · exact safe_ok _ t ht s

/-- All tasks stay inside the matrices and declare their accesses. -/
theorem giStep_good {env : M → MatEnv} (h : GiOK b n A W) (fa : Fits env b A) (fw : Fits env b W) (wm : W.d.m = n)
    (wn : W.d.n = b) (hk : k < A.d.mt) : Good (evalid env) (giStep dv A W k) := by
  have hb := h.al.pos
  have hw0 : ∀ k, tdim n b k ≤ tdim W.d.n b 0 := by intro k; rw [wn]; unfold tdim; omega
  have vA : ∀ {m q r c}, r ≤ tdim n b m → c ≤ tdim n b q → ∀ i j, box r c i j → evalid env (A.at' m q) i j :=
    fun hr hc => fa.box (by rw [h.m]; exact hr) (by rw [h.n]; exact hc)
  have vW : ∀ {m q r c}, r ≤ tdim n b m → c ≤ tdim n b q → ∀ i j, box r c i j → evalid env (W.at' m 0) i j :=
    fun {m q r c} hr hc => fw.box (by rw [wm]; exact hr) (le_trans hc (hw0 q))
  have hset : ∀ {sel i0 j0 m' n' m}, i0 + m' ≤ tdim n b m ∨ m' = 0 → j0 + n' ≤ tdim n b k ∨ n' = 0 →
      Good (evalid env) [coreLaset (α := α) sel i0 j0 m' n' 0 0 (A.at' m k)] := by
    intro sel i0 j0 m' n' m h1 h2
    refine Good.single coreLaset_local op0_declared (op0_inside ?_)
    rintro i j ⟨g1, g2, g3, g4, -⟩
    exact vA (m := m) (q := k) (le_refl _) (le_refl _) i j ⟨by omega, by omega⟩
  have hcpy : ∀ {sel m}, m < A.d.mt → Good (evalid env)
      [coreLacpy (α := α) sel .noTrans (A.d.mview m) (A.d.nview k) (A.at' m k) (W.at' m 0)] := by
    intro sel m hm
    refine Good.single coreLacpy_local op1_declared (op1_inside ?_ ?_)
    · intro i j hij
      have := (mem_lacpyIdx (t := .noTrans) (Or.inl rfl)).mp hij
      rw [h.mv hm, h.nv hk] at this
      exact vA (m := m) (q := k) (le_refl _) (le_refl _) i j ⟨this.1, this.2.1⟩
    · intro i j hij
      rw [mem_lacpyDst, if_pos rfl, mem_lacpyIdx (Or.inl rfl), h.mv hm, h.nv hk] at hij
      exact vW (m := m) (q := k) (le_refl _) (le_refl _) i j ⟨hij.1, hij.2.1⟩
  have hnt : ∀ {q}, q < A.d.nt → q < A.d.mt := fun hq => by rw [h.mt, ← h.nt]; exact hq
  unfold giStep
  refine Good.append ?_ (Good.append ?_ ?_)
  · rw [giCopyT_eq hk]
    refine Good.flatMap fun m hm => ?_
    rw [mem_span] at hm
    unfold giPair
    split
    · rename_i e; subst e
      refine Good.cons (hcpy hk) (hset ?_ ?_) <;> (rw [h.nv hk]; omega)
    · exact Good.cons (hcpy hm.2) (hset (by rw [h.mv hm.2]; omega) (by rw [h.nv hk]; omega))
  · unfold giGemm
    refine Good.flatMap fun m hm => Good.map fun q hq => ?_
    rw [List.mem_range] at hm
    rw [mem_span] at hq
    refine gemm_single_good ?_ ?_ ?_
    · rw [if_pos rfl, h.mv hm, h.nv (hnt hq.2)]; exact vA (le_refl _) (le_refl _)
    · rw [if_pos rfl, h.nv hk, h.nv (hnt hq.2)]; exact vW (q := k) (le_refl _) (le_refl _)
    · rw [h.mv hm, h.nv hk]; exact vA (le_refl _) (le_refl _)
  · unfold giTrsm
    refine Good.flatMap fun m hm => ?_
    rw [List.mem_range] at hm
    refine Good.single coreTrsm_local op1_declared (op1_inside ?_ ?_)
    · intro i j hij
      unfold triD at hij
      simp only [reduceCtorEq, if_false] at hij
      rw [h.nv hk] at hij
      exact vW (m := k) (q := k) (le_refl _) (le_refl _) i j ⟨hij.1, hij.2.1⟩
    · rw [h.mv hm, h.nv hk]; exact vA (le_refl _) (le_refl _)

theorem pzgetriAux_good {env : M → MatEnv} (h : GiOK b n A W) (fa : Fits env b A) (fw : Fits env b W) (wm : W.d.m = n)
    (wn : W.d.n = b) : Good (evalid env) (tasks (pzgetriAux dv A W)) := by
  rw [tasks_pzgetriAux]
  exact Good.flatMap fun k hk => giStep_good h fa fw wm wn (List.mem_range.mp (List.mem_reverse.mp hk))

/-- The last task of step `n` for tile row `m` updates tile `(m, n)`. -/
theorem giTrsm_dep {m : Nat} (hm : m < A.d.mt) : ∃ t ∈ giTrsm dv A W k, (A.at' m k, true) ∈ t.deps := by
  refine ⟨_, List.mem_flatMap.mpr ⟨m, List.mem_range.mpr hm, List.mem_singleton.mpr rfl⟩, ?_⟩
  simp [coreTrsm, op1]

end

/-! ### Chains of dependences to tile rows -/

section
variable {M : Type u} {α : Type v} {A : TMat M}

/-- Each task of `L` that touches a tile of `A` is, or precedes in a chain of dependences, a task
of `L` with an `inout` dependence on a tile of the same row. -/
def AnchPath (A : TMat M) (L : List (TTask (M × Nat × Nat) α)) : Prop :=
  ∀ (i : Nat) t, L[i]? = some t → ∀ m n k l, m < A.d.mt → n < A.d.nt →
    t.rd (A.at' m n) k l ∨ t.wr (A.at' m n) k l →
    ∃ (j : Nat) (t' : TTask (M × Nat × Nat) α) (n' : Nat), L[j]? = some t' ∧ n' < A.d.nt ∧
      (A.at' m n', true) ∈ t'.deps ∧ Relation.ReflTransGen (TEdge L) i j

theorem tedge_left {L L' : List (TTask (M × Nat × Nat) α)} {i j : Nat} (h : TEdge L i j) : TEdge (L ++ L') i j := by
  obtain ⟨h1, t, t', h2, h3, h4⟩ := h
  refine ⟨h1, t, t', ?_, ?_, h4⟩
  · rw [List.getElem?_append_left (List.getElem?_eq_some_iff.mp h2).1]; exact h2
  · rw [List.getElem?_append_left (List.getElem?_eq_some_iff.mp h3).1]; exact h3

theorem tedge_right {L L' : List (TTask (M × Nat × Nat) α)} {i j : Nat} (h : TEdge L' i j) :
    TEdge (L ++ L') (L.length + i) (L.length + j) := by
  obtain ⟨h1, t, t', h2, h3, h4⟩ := h
  refine ⟨by omega, t, t', ?_, ?_, h4⟩
  · rw [List.getElem?_append_right (by omega), Nat.add_sub_cancel_left]; exact h2
  · rw [List.getElem?_append_right (by omega), Nat.add_sub_cancel_left]; exact h3

theorem AnchPath.right {L L' : List (TTask (M × Nat × Nat) α)} (h' : AnchPath A L') {i : Nat}
    {t : TTask (M × Nat × Nat) α} (ht : L'[i]? = some t) {m n k l : Nat} (hm : m < A.d.mt) (hn : n < A.d.nt)
    (hx : t.rd (A.at' m n) k l ∨ t.wr (A.at' m n) k l) :
    ∃ (j : Nat) (t' : TTask (M × Nat × Nat) α) (n' : Nat), (L ++ L')[j]? = some t' ∧ n' < A.d.nt ∧
      (A.at' m n', true) ∈ t'.deps ∧ Relation.ReflTransGen (TEdge (L ++ L')) (L.length + i) j := by
  obtain ⟨j, t', n', h1, h2, h3, h4⟩ := h' i t ht m n k l hm hn hx
  refine ⟨L.length + j, t', n', ?_, h2, h3, ?_⟩
  · rw [List.getElem?_append_right (by omega), Nat.add_sub_cancel_left]; exact h1
  · exact Relation.ReflTransGen.lift (fun i => L.length + i) (fun a b hab => tedge_right hab) _ _ h4

theorem AnchPath.append {L L' : List (TTask (M × Nat × Nat) α)} (h : AnchPath A L) (h' : AnchPath A L') :
    AnchPath A (L ++ L') := by
  intro i t ht m n k l hm hn hx
  by_cases hi : i < L.length
  · rw [List.getElem?_append_left hi] at ht
    obtain ⟨j, t', n', h1, h2, h3, h4⟩ := h i t ht m n k l hm hn hx
    refine ⟨j, t', n', ?_, h2, h3, Relation.ReflTransGen.mono (fun a b hab => tedge_left hab) _ _ h4⟩
    rw [List.getElem?_append_left (List.getElem?_eq_some_iff.mp h1).1]; exact h1
  · obtain ⟨q, rfl⟩ := Nat.exists_eq_add_of_le (Nat.le_of_not_lt hi)
    rw [List.getElem?_append_right (by omega), Nat.add_sub_cancel_left] at ht
    exact h'.right ht hm hn hx

theorem AnchPath.nil : AnchPath A ([] : List (TTask (M × Nat × Nat) α)) := by
  intro i t ht; simp at ht

theorem AnchPath.flatMap {ι : Type w} {l : List ι} {g : ι → List (TTask (M × Nat × Nat) α)}
    (h : ∀ x ∈ l, AnchPath A (g x)) : AnchPath A (l.flatMap g) := by
  induction l with
  | nil => exact AnchPath.nil
  | cons x l ih =>
    rw [List.flatMap_cons]
    exact (h x (by simp)).append (ih fun y hy => h y (by simp [hy]))

/-- Declared tasks followed by tasks that update every tile they touch. -/
theorem AnchPath.anchor {L L' : List (TTask (M × Nat × Nat) α)} (hd : ∀ t ∈ L, t.Declared)
    (ha : ∀ t ∈ L, ∀ m n k l, m < A.d.mt → n < A.d.nt → t.rd (A.at' m n) k l ∨ t.wr (A.at' m n) k l →
      ∃ t' ∈ L', (A.at' m n, true) ∈ t'.deps) (h' : AnchPath A L') : AnchPath A (L ++ L') := by
  intro i t ht m n k l hm hn hx
  by_cases hi : i < L.length
  · rw [List.getElem?_append_left hi] at ht
    have htL := List.mem_of_getElem? ht
    obtain ⟨t', ht', hdep⟩ := ha t htL m n k l hm hn hx
    obtain ⟨q, hq⟩ := List.getElem?_of_mem ht'
    have hq' : (L ++ L')[L.length + q]? = some t' := by
      rw [List.getElem?_append_right (by omega), Nat.add_sub_cancel_left]; exact hq
    refine ⟨L.length + q, t', n, hq', hn, hdep, Relation.ReflTransGen.single ⟨by omega, t, t', ?_, hq', Or.inr ?_⟩⟩
    · rw [List.getElem?_append_left hi]; exact ht
    · rcases hx with hx | hx
      · obtain ⟨bb, hb⟩ := (hd t htL).1 _ _ _ hx
        exact ⟨_, hb, _, hdep, rfl, Or.inr rfl⟩
      · exact ⟨_, (hd t htL).2 _ _ _ hx, _, hdep, rfl, Or.inl rfl⟩
  · obtain ⟨q, rfl⟩ := Nat.exists_eq_add_of_le (Nat.le_of_not_lt hi)
    rw [List.getElem?_append_right (by omega), Nat.add_sub_cancel_left] at ht
    exact h'.right ht hm hn hx

end

section
variable {M : Type u} [DecidableEq M] {α : Type v} [Field α] [StarRing α] [DecidableEq α] {dv : α → α → α}
  {A W : TMat M} {b n k : Nat}

theorem giStep_anch {env : M → MatEnv} (h : GiOK b n A W) (fa : Fits env b A) (fw : Fits env b W) (wm : W.d.m = n)
    (wn : W.d.n = b) (hk : k < A.d.mt) : AnchPath A (giStep dv A W k) := by
  have hg := giStep_good (dv := dv) h fa fw wm wn hk
  have hkn : k < A.d.nt := by rw [h.nt, ← h.mt]; exact hk
  unfold giStep at hg ⊢
  refine AnchPath.anchor (fun t ht => hg.decl t (List.mem_append_left _ ht)) ?_ ?_
  · intro t ht m q i j hm hq hx
    have hqk : q = k := by
      rw [giCopyT_eq hk] at ht
      obtain ⟨m', hm', ht⟩ := List.mem_flatMap.mp ht
      rcases (giPair_within (α := α) (A := A) (W := W) (k := k) (m := m')).2 t ht _ i j hx with e | e
      · exact (TMat.at'_inj.mp e).2
      · exact absurd e (h.aw _ _ _ _)
    subst hqk
    obtain ⟨t', ht', hd⟩ := giTrsm_dep (dv := dv) (A := A) (W := W) (k := q) hm
    exact ⟨t', List.mem_append_right _ ht', hd⟩
  · intro i t ht m q i' j' hm hq hx
    refine ⟨i, t, k, ht, hkn, ?_, Relation.ReflTransGen.refl⟩
    rcases List.mem_append.mp (List.mem_of_getElem? ht) with ht | ht
    · unfold giGemm at ht
      obtain ⟨m', _, ht⟩ := List.mem_flatMap.mp ht
      obtain ⟨q', _, rfl⟩ := List.mem_map.mp ht
      unfold coreGemm op2 at hx ⊢
      have : m = m' := by
        rcases hx with (hx | hx) | hx
        · exact (TMat.at'_inj.mp hx.1).1
        · exact absurd hx.1 (h.aw _ _ _ _)
        · exact (TMat.at'_inj.mp hx.1).1
      subst this
      simp
    · unfold giTrsm at ht
      obtain ⟨m', _, ht⟩ := List.mem_flatMap.mp ht
      rw [List.mem_singleton] at ht
      subst ht
      unfold coreTrsm op1 at hx ⊢
      have : m = m' := by
        rcases hx with hx | hx
        · exact absurd hx.1 (h.aw _ _ _ _)
        · exact (TMat.at'_inj.mp hx.1).1
      subst this
      simp

theorem pzgetriAux_anch {env : M → MatEnv} (h : GiOK b n A W) (fa : Fits env b A) (fw : Fits env b W) (wm : W.d.m = n)
    (wn : W.d.n = b) : AnchPath A (tasks (pzgetriAux dv A W)) := by
  rw [tasks_pzgetriAux]
  exact AnchPath.flatMap fun k hk => giStep_anch h fa fw wm wn (List.mem_range.mp (List.mem_reverse.mp hk))

theorem pzgetriAux_dep {m q : Nat} (hm : m < A.d.mt) (hq : q < A.d.mt) :
    ∃ t ∈ tasks (pzgetriAux dv A W), (A.at' m q, true) ∈ t.deps := by
  obtain ⟨t, ht, hd⟩ := giTrsm_dep (dv := dv) (A := A) (W := W) (k := q) hm
  refine ⟨t, ?_, hd⟩
  rw [tasks_pzgetriAux]
  exact List.mem_flatMap.mpr ⟨q, List.mem_reverse.mpr (List.mem_range.mpr hq),
    List.mem_append_right _ (List.mem_append_right _ ht)⟩

end

end Verif.Tile

/-
Symmetric and Hermitian matrix multiplication: compute/pzsymm.c, compute/pzhemm.c and
their kernels.
-/
import Verif.RankProof

namespace Verif.Tile

open Verif.Layout Finset

universe u v

variable {M : Type u} {α : Type v}

/-- `PlasmaLeft`, `PlasmaRight` (include/plasma_types.h). -/
inductive Side | left | right
  deriving DecidableEq, Repr

/-- Entry `(i, j)` of the symmetric (`h = false`) or Hermitian (`h = true`) matrix whose
triangle `u` is stored in `A`; the diagonal of a Hermitian matrix is real. -/
def symE [Star α] (h : Bool) (re : α → α) (u : Uplo) (A : Nat → Nat → α) (i j : Nat) : α :=
  if i = j then dre h re i i (A i i) else if inTri u i j then A i j else cj h (A j i)

section
variable [CommRing α] [StarRing α]

/-- `plasma_core_omp_zsymm` (core_blas/core_zsymm.c:78-125) and `plasma_core_omp_zhemm`
(core_blas/core_zhemm.c:80-124), by their BLAS specification in exact arithmetic. -/
def coreSymm (h : Bool) (re : α → α) (sd : Side) (u : Uplo) (m n : Nat) (alpha : α) (a b : M)
    (beta : α) (c : M) : TTask M α :=
  op2 a (if sd = .left then tri u m else tri u n) b (box m n) c (box m n)
    fun A B C i j => beta * C i j + alpha *
      (if sd = .left then ∑ l ∈ range m, symE h re u A i l * B l j
       else ∑ l ∈ range n, B i l * symE h re u A l j)

/-- `plasma_pzsymm` (`h = false`, compute/pzsymm.c:29-211) and `plasma_pzhemm` (`h = true`,
compute/pzhemm.c:29-211); the two files differ in the diagonal kernel and in
`PlasmaTrans`/`PlasmaConjTrans` only. -/
def pzsymm (h : Bool) (re : α → α) (sd : Side) (u : Uplo) (alpha : α) (A B : TMat M) (beta : α)
    (C : TMat M) : List (TTask (M × Nat × Nat) α) :=
  (List.range C.d.mt).flatMap fun m => (List.range C.d.nt).flatMap fun n =>
    if sd = .left then
      if u = .lower then
        (List.range C.d.mt).map fun k =>
          if k < m then
            coreGemm .noTrans .noTrans (C.d.mview m) (C.d.nview n) (C.d.mview k) alpha (A.at' m k)
              (B.at' k n) (if k = 0 then beta else 1) (C.at' m n)
          else if k = m then
            coreSymm h re sd u (C.d.mview m) (C.d.nview n) alpha (A.at' k k) (B.at' k n)
              (if k = 0 then beta else 1) (C.at' m n)
          else
            coreGemm (tt h) .noTrans (C.d.mview m) (C.d.nview n) (C.d.mview k) alpha (A.at' k m)
              (B.at' k n) (if k = 0 then beta else 1) (C.at' m n)
      else
        (List.range C.d.mt).map fun k =>
          if k < m then
            coreGemm (tt h) .noTrans (C.d.mview m) (C.d.nview n) (C.d.mview k) alpha (A.at' k m)
              (B.at' k n) (if k = 0 then beta else 1) (C.at' m n)
          else if k = m then
            coreSymm h re sd u (C.d.mview m) (C.d.nview n) alpha (A.at' k k) (B.at' k n)
              (if k = 0 then beta else 1) (C.at' m n)
          else
            coreGemm .noTrans .noTrans (C.d.mview m) (C.d.nview n) (C.d.mview k) alpha (A.at' m k)
              (B.at' k n) (if k = 0 then beta else 1) (C.at' m n)
    else
      if u = .lower then
        (List.range C.d.nt).map fun k =>
          if k < n then
            coreGemm .noTrans (tt h) (C.d.mview m) (C.d.nview n) (C.d.nview k) alpha (B.at' m k)
              (A.at' n k) (if k = 0 then beta else 1) (C.at' m n)
          else if n = k then
            coreSymm h re sd u (C.d.mview m) (C.d.nview n) alpha (A.at' k k) (B.at' m k)
              (if k = 0 then beta else 1) (C.at' m n)
          else
            coreGemm .noTrans .noTrans (C.d.mview m) (C.d.nview n) (C.d.nview k) alpha (B.at' m k)
              (A.at' k n) (if k = 0 then beta else 1) (C.at' m n)
      else
        (List.range C.d.nt).map fun k =>
          if k < n then
            coreGemm .noTrans .noTrans (C.d.mview m) (C.d.nview n) (C.d.nview k) alpha (B.at' m k)
              (A.at' k n) (if k = 0 then beta else 1) (C.at' m n)
          else if n = k then
            coreSymm h re sd u (C.d.mview m) (C.d.nview n) alpha (A.at' k k) (B.at' m k)
              (if k = 0 then beta else 1) (C.at' m n)
          else
            coreGemm .noTrans (tt h) (C.d.mview m) (C.d.nview n) (C.d.nview k) alpha (B.at' m k)
              (A.at' n k) (if k = 0 then beta else 1) (C.at' m n)

/-- `plasma_omp_zsymm`/`plasma_omp_zhemm` after the argument checks
(compute/zsymm.c:332-342, compute/zhemm.c:328-338). -/
def ompSymm [DecidableEq α] (h : Bool) (re : α → α) (sd : Side) (u : Uplo) (alpha : α)
    (A B : TMat M) (beta : α) (C : TMat M) : List (TTask (M × Nat × Nat) α) :=
  if C.d.m = 0 ∨ C.d.n = 0 ∨ ((alpha = 0 ∨ A.d.n = 0) ∧ beta = 1) then []
  else pzsymm h re sd u alpha A B beta C

/-- The triangle of `A` is read only. -/
theorem symE_congr {h : Bool} {re : α → α} {u : Uplo} {A A' : Nat → Nat → α} {n i j : Nat}
    (hi : i < n) (hj : j < n) (hA : ∀ i j, tri u n i j → A i j = A' i j) :
    symE h re u A i j = symE h re u A' i j := by
  unfold symE
  split
  · rw [hA i i ⟨hi, hi, by cases u <;> simp [inTri]⟩]
  · rename_i hne
    split
    · rename_i ht; rw [hA i j ⟨hi, hj, ht⟩]
    · rename_i ht
      rw [hA j i ⟨hj, hi, by cases u <;> simp [inTri] at ht ⊢ <;> omega⟩]

theorem coreSymm_local {h : Bool} {re : α → α} {sd : Side} {u : Uplo} {m n : Nat} {alpha beta : α}
    {a b c : M} : (coreSymm h re sd u m n alpha a b beta c).Local := by
  apply op2_local
  intro A A' B B' C C' hA hB hC i j hij
  rw [hC i j hij]
  congr 2
  cases sd
  · simp only [if_true] at hA ⊢
    apply Finset.sum_congr rfl
    intro l hl
    rw [mem_range] at hl
    rw [symE_congr hij.1 hl hA, hB l j ⟨hl, hij.2⟩]
  · simp only [reduceCtorEq, if_false] at hA ⊢
    apply Finset.sum_congr rfl
    intro l hl
    rw [mem_range] at hl
    rw [symE_congr hl hij.2 hA, hB i l ⟨hij.1, hl⟩]

/-- Block of the symmetric matrix at block position `(x, y)` with local indices. -/
theorem symE_block {h : Bool} {re : α → α} {u : Uplo} {A : TMat M} {b : Nat} (hA : A.Al b)
    (s : Store (M × Nat × Nat) α) {x y i j : Nat} (hi : i < b) (hj : j < b) :
    symE h re u (A.el s) (x * b + i) (y * b + j) =
      if x = y then symE h re u (s (A.at' x x)) i j
      else if inTri u x y then s (A.at' x y) i j else cj h (s (A.at' y x) j i) := by
  by_cases hxy : x = y
  · subst hxy
    rw [if_pos rfl]
    unfold symE dre
    simp only [Nat.add_left_cancel_iff, hA.el_tile s hi hi, hA.el_tile s hi hj, hA.el_tile s hj hi,
      inTri_diag_iff]
  · rw [if_neg hxy]
    have hne : x * b + i ≠ y * b + j := by
      intro he
      have h1 := div_of_tile (t := x) hi
      rw [he, div_of_tile hj] at h1
      exact hxy h1.symm
    have ht : inTri u (x * b + i) (y * b + j) ↔ inTri u x y := by
      rcases Nat.lt_or_gt_of_ne hxy with hl | hl
      · have : (x + 1) * b ≤ y * b := Nat.mul_le_mul_right b hl
        rw [Nat.add_mul] at this
        cases u <;> simp only [inTri] <;> constructor <;> intro <;> omega
      · have : (y + 1) * b ≤ x * b := Nat.mul_le_mul_right b hl
        rw [Nat.add_mul] at this
        cases u <;> simp only [inTri] <;> constructor <;> intro <;> omega
    unfold symE
    rw [if_neg hne, hA.el_tile s hi hj, hA.el_tile s hj hi]
    simp only [ht]

/-- One call of the nest in a uniform way: block `l` of the inner dimension. -/
def symmT (h : Bool) (re : α → α) (sd : Side) (u : Uplo) (alpha : α) (A B : TMat M) (beta : α)
    (C : TMat M) (b Mm Nn : Nat) (m n l : Nat) : TTask (M × Nat × Nat) α :=
  if sd = .left then
    if l = m then
      coreSymm h re sd u (tdim Mm b m) (tdim Nn b n) alpha (A.at' l l) (B.at' l n)
        (if l = 0 then beta else 1) (C.at' m n)
    else if inTri u m l then
      coreGemm .noTrans .noTrans (tdim Mm b m) (tdim Nn b n) (tdim Mm b l) alpha (A.at' m l)
        (B.at' l n) (if l = 0 then beta else 1) (C.at' m n)
    else
      coreGemm (tt h) .noTrans (tdim Mm b m) (tdim Nn b n) (tdim Mm b l) alpha (A.at' l m)
        (B.at' l n) (if l = 0 then beta else 1) (C.at' m n)
  else
    if l = n then
      coreSymm h re sd u (tdim Mm b m) (tdim Nn b n) alpha (A.at' l l) (B.at' m l)
        (if l = 0 then beta else 1) (C.at' m n)
    else if inTri u l n then
      coreGemm .noTrans .noTrans (tdim Mm b m) (tdim Nn b n) (tdim Nn b l) alpha (B.at' m l)
        (A.at' l n) (if l = 0 then beta else 1) (C.at' m n)
    else
      coreGemm .noTrans (tt h) (tdim Mm b m) (tdim Nn b n) (tdim Nn b l) alpha (B.at' m l)
        (A.at' n l) (if l = 0 then beta else 1) (C.at' m n)

/-- Order of the symmetric operand. -/
def symOrd (sd : Side) (Mm Nn : Nat) : Nat := if sd = .left then Mm else Nn

section el
variable {h : Bool} {re : α → α} {sd : Side} {u : Uplo} {alpha beta : α} {A B C : TMat M} {b Mm Nn : Nat}

theorem pzsymm_eq (hC : C.Al b) (hm : C.d.m = Mm) (hn : C.d.n = Nn) :
    pzsymm h re sd u alpha A B beta C =
      (List.range C.d.mt).flatMap fun m => (List.range C.d.nt).flatMap fun n =>
        (List.range (ceilDiv (symOrd sd Mm Nn) b)).flatMap fun l =>
          [symmT h re sd u alpha A B beta C b Mm Nn m n l] := by
  have hmv : ∀ m, m < C.d.mt → C.d.mview m = tdim Mm b m := fun m h => by rw [hC.mview h, hm]
  have hnv : ∀ m, m < C.d.nt → C.d.nview m = tdim Nn b m := fun m h => by rw [hC.nview h, hn]
  unfold pzsymm
  apply List.flatMap_congr
  intro m hm'
  apply List.flatMap_congr
  intro n hn'
  rw [List.mem_range] at hm' hn'
  have hK : ceilDiv (symOrd sd Mm Nn) b = if sd = .left then C.d.mt else C.d.nt := by
    unfold symOrd; rw [hC.mt_eq, hC.nt_eq, hm, hn]; split <;> rfl
  rw [hK]
  cases sd <;> cases u
  all_goals
    simp only [if_true, reduceCtorEq, if_false, map_flatMap_sing]
    apply List.flatMap_congr
    intro l hl
    rw [List.mem_range] at hl
    first
      | rw [hmv m hm', hnv n hn', hmv l hl]
      | rw [hmv m hm', hnv n hn', hnv l hl]
    unfold symmT inTri
    simp only [if_true, reduceCtorEq, if_false]
    congr 1
    split_ifs <;> first | rfl | omega

theorem symmT_writes (m n l : Nat) :
    Writes (fun t => t = C.at' m n) [symmT h re sd u alpha A B beta C b Mm Nn m n l] := by
  unfold symmT
  generalize (if l = 0 then beta else (1 : α)) = be
  split_ifs <;> exact writes_op2 rfl

theorem symmT_within {R : M → Prop} (hRA : R A.id) (hRB : R B.id) (m n l : Nat) :
    Within (fun t => R t.1 ∨ t = C.at' m n) [symmT h re sd u alpha A B beta C b Mm Nn m n l] := by
  unfold symmT
  generalize (if l = 0 then beta else (1 : α)) = be
  split_ifs
  · exact Within.op2 coreSymm_local (Or.inl hRA) (Or.inl hRB) (Or.inr rfl)
  · exact gemm_within (Or.inl hRA) (Or.inl hRB) (Or.inr rfl)
  · exact gemm_within (Or.inl hRA) (Or.inl hRB) (Or.inr rfl)
  · exact Within.op2 coreSymm_local (Or.inl hRA) (Or.inl hRB) (Or.inr rfl)
  · exact gemm_within (Or.inl hRB) (Or.inl hRA) (Or.inr rfl)
  · exact gemm_within (Or.inl hRB) (Or.inl hRA) (Or.inr rfl)

/-- The product the routine is meant to compute. -/
def symmProd (h : Bool) (re : α → α) (sd : Side) (u : Uplo) (A B : Nat → Nat → α) (r c l : Nat) : α :=
  if sd = .left then symE h re u A r l * B l c else B r l * symE h re u A l c

theorem coreSymm_run {m n : Nat} {a b' c : M} (s : Store M α) {i j : Nat} (hij : box m n i j) :
    (coreSymm h re sd u m n alpha a b' beta c).run s c i j = beta * s c i j + alpha *
      (if sd = .left then ∑ l ∈ range m, symE h re u (s a) i l * s b' l j
       else ∑ l ∈ range n, s b' i l * symE h re u (s a) l j) := by
  unfold coreSymm; rw [op2_self, paste_in hij]

theorem opE_tt (h : Bool) (A : Nat → Nat → α) (i j : Nat) : opE (tt h) A i j = cj h (A j i) := by
  cases h <;> simp [opE, tt, cj]

theorem symmT_run (hA : A.Al b) (hB : B.Al b) (hC : C.Al b) (hac : A.id ≠ C.id) (hbc : B.id ≠ C.id)
    {r c : Nat} (hr : r < Mm) (hc : c < Nn) (s s0 : Store (M × Nat × Nat) α)
    (hs : ∀ t, t ≠ C.at' (r / b) (c / b) → s t = s0 t) (l : Nat) :
    (symmT h re sd u alpha A B beta C b Mm Nn (r / b) (c / b) l).run s (C.at' (r / b) (c / b))
        (r % b) (c % b) =
      (if l = 0 then beta else 1) * s (C.at' (r / b) (c / b)) (r % b) (c % b) +
      alpha * ∑ x ∈ range (tdim (symOrd sd Mm Nn) b l),
        symmProd h re sd u (A.el s0) (B.el s0) r c (l * b + x) := by
  have hb := hC.pos
  have hAs : ∀ x y, s (A.at' x y) = s0 (A.at' x y) := fun x y => hs _ (TMat.at'_ne hac)
  have hBs : ∀ x y, s (B.at' x y) = s0 (B.at' x y) := fun x y => hs _ (TMat.at'_ne hbc)
  have hbox : box (tdim Mm b (r / b)) (tdim Nn b (c / b)) (r % b) (c % b) :=
    ⟨mod_lt_tdim hb hr, mod_lt_tdim hb hc⟩
  have hrb := Nat.mod_lt r hb
  have hcb := Nat.mod_lt c hb
  have eA1 : ∀ x, x < b → symE h re u (A.el s0) r (l * b + x) =
      if r / b = l then symE h re u (s0 (A.at' (r / b) (r / b))) (r % b) x
      else if inTri u (r / b) l then s0 (A.at' (r / b) l) (r % b) x
      else cj h (s0 (A.at' l (r / b)) x (r % b)) := by
    intro x hx
    rw [← symE_block hA s0 hrb hx, divmod]
  have eA2 : ∀ x, x < b → symE h re u (A.el s0) (l * b + x) c =
      if l = c / b then symE h re u (s0 (A.at' l l)) x (c % b)
      else if inTri u l (c / b) then s0 (A.at' l (c / b)) x (c % b)
      else cj h (s0 (A.at' (c / b) l) (c % b) x) := by
    intro x hx
    rw [← symE_block hA s0 hx hcb, divmod]
  have eB1 : ∀ x, x < b → B.el s0 (l * b + x) c = s0 (B.at' l (c / b)) x (c % b) := by
    intro x hx; rw [← hB.el_tile s0 hx hcb, divmod]
  have eB2 : ∀ x, x < b → B.el s0 r (l * b + x) = s0 (B.at' (r / b) l) (r % b) x := by
    intro x hx; rw [← hB.el_tile s0 hrb hx, divmod]
  have lb : ∀ {K x}, x ∈ range (tdim K b l) → x < b := fun hx => by
    rw [mem_range, tdim_row] at hx; exact hx.1
  unfold symmT symOrd symmProd
  generalize (if l = 0 then beta else (1 : α)) = be
  cases sd
  · simp only [if_true]
    split_ifs with h1 h2
    · rw [coreSymm_run s hbox, hAs, hBs]
      simp only [if_true]
      congr 2
      rw [h1]
      apply Finset.sum_congr rfl
      intro x hx
      rw [← h1] at hx
      rw [← h1, eA1 x (lb hx), eB1 x (lb hx), if_pos h1.symm, ← h1]
    · rw [gemm_run s hbox, hAs, hBs]
      congr 2
      apply Finset.sum_congr rfl
      intro x hx
      rw [eA1 x (lb hx), eB1 x (lb hx), if_neg (fun e => h1 e.symm), if_pos h2]; rfl
    · rw [gemm_run s hbox, hAs, hBs]
      congr 2
      apply Finset.sum_congr rfl
      intro x hx
      rw [eA1 x (lb hx), eB1 x (lb hx), if_neg (fun e => h1 e.symm), if_neg h2, opE_tt]; rfl
  · simp only [reduceCtorEq, if_false]
    split_ifs with h1 h2
    · rw [coreSymm_run s hbox, hAs, hBs]
      simp only [reduceCtorEq, if_false]
      congr 2
      rw [h1]
      apply Finset.sum_congr rfl
      intro x hx
      rw [← h1] at hx
      rw [← h1, eA2 x (lb hx), eB2 x (lb hx), if_pos h1]
    · rw [gemm_run s hbox, hAs, hBs]
      congr 2
      apply Finset.sum_congr rfl
      intro x hx
      rw [eA2 x (lb hx), eB2 x (lb hx), if_neg h1, if_pos h2]; rfl
    · rw [gemm_run s hbox, hAs, hBs]
      congr 2
      apply Finset.sum_congr rfl
      intro x hx
      rw [eA2 x (lb hx), eB2 x (lb hx), if_neg h1, if_neg h2, opE_tt]; rfl

/-- Element-level effect of `pzsymm`. -/
theorem pzsymm_el (hA : A.Al b) (hB : B.Al b) (hC : C.Al b) (hm : C.d.m = Mm) (hn : C.d.n = Nn)
    (hac : A.id ≠ C.id) (hbc : B.id ≠ C.id) (s : Store (M × Nat × Nat) α) {r c : Nat}
    (hr : r < Mm) (hc : c < Nn) :
    C.el (texec (pzsymm h re sd u alpha A B beta C) s) r c = beta * C.el s r c +
      alpha * ∑ l ∈ range (symOrd sd Mm Nn), symmProd h re sd u (A.el s) (B.el s) r c l := by
  have hb := hC.pos
  have hrm := hC.row_mt (hm ▸ hr)
  have hcn := hC.col_nt (hn ▸ hc)
  rw [pzsymm_eq hC hm hn, flatMap_product]
  simp only [TMat.el, hC.mb, hC.nb]
  have hp : ((r / b, c / b) : Nat × Nat) ∈ (List.range C.d.mt) ×ˢ (List.range C.d.nt) := by
    simp only [SProd.sprod]; rw [List.pair_mem_product]; simp [hrm, hcn]
  have := par (o := fun p : Nat × Nat => C.at' p.1 p.2)
    (body := fun p => (List.range (ceilDiv (symOrd sd Mm Nn) b)).flatMap fun l =>
          [symmT h re sd u alpha A B beta C b Mm Nn p.1 p.2 l])
    (List.nodup_range.product List.nodup_range) ?_ ?_ ?_ s hp
  · simp only [SProd.sprod] at this ⊢
    rw [this]
    have hK : 0 < ceilDiv (symOrd sd Mm Nn) b := (lt_ceilDiv hb).mpr (by
      unfold symOrd; split <;> omega)
    rw [acc_chain (c := C.at' (r / b) (c / b)) (fun l => symmT_writes (r / b) (c / b) l) s
      (beta * s (C.at' (r / b) (c / b)) (r % b) (c % b))
      (fun l => alpha * ∑ x ∈ range (tdim (symOrd sd Mm Nn) b l),
        symmProd h re sd u (A.el s) (B.el s) r c (l * b + x)) ?_ ?_ _ hK]
    · rw [← mul_sum, sum_tiles hb (fun l => symmProd h re sd u (A.el s) (B.el s) r c l)]
    · intro s' hs' hs''
      rw [texec_cons, texec_nil, symmT_run hA hB hC hac hbc hr hc s' s hs', hs'', if_pos rfl]
    · intro l s' hs' hs''
      rw [texec_cons, texec_nil, symmT_run hA hB hC hac hbc hr hc s' s hs', hs'',
        if_neg (by omega), one_mul]
  · intro p _ q _ h
    rw [TMat.at'_inj] at h
    exact Prod.ext h.1 h.2
  · intro p _
    refine Within.mono (Within.flatMap fun l _ =>
      symmT_within (R := fun x => x = A.id ∨ x = B.id) (Or.inl rfl) (Or.inr rfl) p.1 p.2 l) ?_
    rintro t (h | h)
    · left
      rintro q _ rfl
      rcases h with h | h
      · exact hac h.symm
      · exact hbc h.symm
    · right; exact h
  · intro p _
    exact Writes.flatMap fun l _ => symmT_writes p.1 p.2 l

theorem pzsymm_writes (hC : C.Al b) (hm : C.d.m = Mm) (hn : C.d.n = Nn) :
    Writes (fun t => t.1 = C.id) (pzsymm h re sd u alpha A B beta C) := by
  rw [pzsymm_eq hC hm hn]
  refine Writes.flatMap fun m _ => Writes.flatMap fun n _ => Writes.flatMap fun l _ =>
    (symmT_writes m n l).mono fun t ht => by rw [ht]; rfl

theorem pzsymm_good {env : M → MatEnv} (hA : Fits env b A) (hB : Fits env b B) (hC : Fits env b C)
    (hm : C.d.m = Mm) (hn : C.d.n = Nn) (hAm : A.d.m = symOrd sd Mm Nn) (hAn : A.d.n = symOrd sd Mm Nn)
    (hBm : B.d.m = Mm) (hBn : B.d.n = Nn) :
    Good (evalid env) (pzsymm h re sd u alpha A B beta C) := by
  rw [pzsymm_eq hC.al hm hn]
  refine Good.flatMap fun m _ => Good.flatMap fun n _ => Good.flatMap fun l _ => ?_
  have hc : ∀ i j, box (tdim Mm b m) (tdim Nn b n) i j → evalid env (C.at' m n) i j :=
    hC.box (by rw [hm]) (by rw [hn])
  have htt : tt h ≠ .noTrans := by cases h <;> simp [tt]
  unfold symmT
  generalize (if l = 0 then beta else (1 : α)) = be
  split_ifs with hs h1 h2 h1 h2
  · refine Good.single coreSymm_local op2_declared (op2_inside ?_ ?_ hc)
    · intro i j hij
      rw [if_pos hs] at hij
      subst h1
      exact hA.box (r := tdim Mm b l) (c := tdim Mm b l) (by simp [hAm, symOrd, hs])
        (by simp [hAn, symOrd, hs]) i j ⟨hij.1, hij.2.1⟩
    · subst h1
      exact hB.box (by rw [hBm]) (by rw [hBn])
  · refine gemm_single_good ?_ ?_ hc <;> simp only [if_true]
    · exact hA.box (by simp [hAm, symOrd, hs]) (by simp [hAn, symOrd, hs])
    · exact hB.box (by rw [hBm]) (by rw [hBn])
  · refine gemm_single_good ?_ ?_ hc <;> simp only [if_true, htt, if_false]
    · exact hA.box (by simp [hAm, symOrd, hs]) (by simp [hAn, symOrd, hs])
    · exact hB.box (by rw [hBm]) (by rw [hBn])
  · refine Good.single coreSymm_local op2_declared (op2_inside ?_ ?_ hc)
    · intro i j hij
      rw [if_neg hs] at hij
      subst h1
      exact hA.box (r := tdim Nn b l) (c := tdim Nn b l) (by simp [hAm, symOrd, hs])
        (by simp [hAn, symOrd, hs]) i j ⟨hij.1, hij.2.1⟩
    · subst h1
      exact hB.box (by rw [hBm]) (by rw [hBn])
  · refine gemm_single_good ?_ ?_ hc <;> simp only [if_true]
    · exact hB.box (by rw [hBm]) (by rw [hBn])
    · exact hA.box (by simp [hAm, symOrd, hs]) (by simp [hAn, symOrd, hs])
  · refine gemm_single_good ?_ ?_ hc <;> simp only [if_true, htt, if_false]
    · exact hB.box (by rw [hBm]) (by rw [hBn])
    · exact hA.box (by simp [hAm, symOrd, hs]) (by simp [hAn, symOrd, hs])

end el

end

end Verif.Tile

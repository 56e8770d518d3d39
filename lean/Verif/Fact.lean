/-
The kernels that make the reflectors of a tile pair: core_blas/core_zpemv.c, core_blas/core_ztsqrt.c,
core_blas/core_zttqrt.c, core_blas/core_ztslqt.c, core_blas/core_zttlqt.c, statement by statement.  Elsewhere these
kernels are tasks given by their result (`tsqrtK`, `ttqrtK`); here the result is proved, as far as it is right.
-/
import Verif.Pent
import Verif.HouseKern

namespace Verif.Fact

open Verif.Layout Verif.Tile Verif.Qr Verif.Pent Finset Matrix

universe v

section
variable {α : Type v} [CommRing α] [StarRing α]

/-! ### Calls of BLAS and LAPACK -/

/-- `cblas_zgemv` (BLAS documentation), in exact arithmetic: `y := alpha op(A) x + beta y` for an `m` by `n` matrix. -/
def gemvF (t : Trans) (m n : Nat) (alpha : α) (A : Tl α) (x : Nat → α) (beta : α) (y : Nat → α) : Nat → α := fun p =>
  if p < (if t = .noTrans then m else n) then
    alpha * (∑ q ∈ range (if t = .noTrans then n else m), opE t A p q * x q) + beta * y p
  else y p

/-- `cblas_ztrmv` with `CblasNonUnit` (BLAS documentation), in exact arithmetic. -/
def trmvF (u : Uplo) (t : Trans) (n : Nat) (A : Tl α) (x : Nat → α) : Nat → α := fun p =>
  if p < n then ∑ q ∈ range n, opE t (trE u .nonUnit A) p q * x q else x p

/-- `cblas_zgerc` (BLAS documentation), in exact arithmetic: `A := A + alpha x y^H`. -/
def gercF (m n : Nat) (alpha : α) (x y : Nat → α) (A : Tl α) : Tl α := fun i j =>
  if i < m ∧ j < n then A i j + alpha * x i * star (y j) else A i j

/-- `LAPACKE_zlacgv_work` (LAPACK documentation). -/
def lacgvF (n : Nat) (x : Nat → α) : Nat → α := fun p => if p < n then star (x p) else x p

/-- `cblas_zaxpy` (BLAS documentation), in exact arithmetic. -/
def axpyV (n : Nat) (a : α) (x y : Nat → α) : Nat → α := fun p => if p < n then y p + a * x p else y p

/-- `cblas_zscal` (BLAS documentation), in exact arithmetic. -/
def scalV (n : Nat) (a : α) (x : Nat → α) : Nat → α := fun p => if p < n then a * x p else x p

/-- `cblas_zcopy` (BLAS documentation). -/
def copyV (n : Nat) (x y : Nat → α) : Nat → α := fun p => if p < n then x p else y p

/-- The vector after `y` has been stored through the pointer `&x[l]`. -/
def putV (l : Nat) (x y : Nat → α) : Nat → α := fun p => if l ≤ p then y (p - l) else x p

/-- The array after an assignment to one element. -/
def setAt (A : Tl α) (r c : Nat) (v : α) : Tl α := fun i j => if i = r ∧ j = c then v else A i j

/-- The array with another column `c`. -/
def setCol (A : Tl α) (c : Nat) (x : Nat → α) : Tl α := fun i j => if j = c then x i else A i j

/-- The array with another row `r`. -/
def setRow (A : Tl α) (r : Nat) (x : Nat → α) : Tl α := fun i j => if i = r then x j else A i j

theorem gemvF_c (m n : Nat) (alpha : α) (A : Tl α) (x : Nat → α) (beta : α) (y : Nat → α) (p : Nat) :
    gemvF .conjTrans m n alpha A x beta y p =
      if p < n then alpha * (∑ q ∈ range m, star (A q p) * x q) + beta * y p else y p := by
  unfold gemvF
  simp only [reduceCtorEq, if_false, opE]

theorem gemvF_n (m n : Nat) (alpha : α) (A : Tl α) (x : Nat → α) (beta : α) (y : Nat → α) (p : Nat) :
    gemvF .noTrans m n alpha A x beta y p =
      if p < m then alpha * (∑ q ∈ range n, A p q * x q) + beta * y p else y p := by
  unfold gemvF
  simp only [if_true, opE]

/-! ### core_zpemv -/

/-- `plasma_core_zpemv` (core_blas/core_zpemv.c:111-290): the new `Y`; `W` is the workspace.  Unit increments: `X` and
`Y` are the vectors, however they are stored.  The arguments pass the checks of lines 121-160; the two combinations that
are not implemented return an error and leave `Y` unchanged.  The quick return of lines 165-166 is taken as it stands. -/
def zpemv [DecidableEq α] (t : Trans) (st : Storev) (m n l : Nat) (alpha : α) (A : Tl α) (X : Nat → α) (beta : α)
    (Y W : Nat → α) : Nat → α :=
  if m = 0 ∨ n = 0 then Y
  else if alpha = 0 ∧ beta = 0 then Y
  else
    let l := if l = 1 then 0 else l
    if st = .columnwise then
      if t = .noTrans then Y
      else
        let Y := if 0 < l then
            let w := copyV l (fun p => X (m - l + p)) W
            let w := trmvF .upper t l (sub (m - l) 0 A) w
            if l < m then
              let Y := gemvF t (m - l) l alpha A X beta Y
              axpyV l alpha w Y
            else
              if beta = 0 then
                let w := scalV l alpha w
                copyV l w Y
              else
                let Y := scalV l beta Y
                axpyV l alpha w Y
          else Y
        if l < n then putV l Y (gemvF t m (n - l) alpha (sub 0 l A) X beta (fun p => Y (l + p))) else Y
    else
      if t = .noTrans then
        let Y := if 0 < l then
            let w := copyV l (fun p => X (n - l + p)) W
            let w := trmvF .lower .noTrans l (sub 0 (n - l) A) w
            if l < n then
              let Y := gemvF .noTrans l (n - l) alpha A X beta Y
              axpyV l alpha w Y
            else
              if beta = 0 then
                let w := scalV l alpha w
                copyV l w Y
              else
                let Y := scalV l beta Y
                axpyV l alpha w Y
          else Y
        if l < m then putV l Y (gemvF .noTrans (m - l) n alpha (sub l 0 A) X beta (fun p => Y (l + p))) else Y
      else Y

/-- What the documentation of `plasma_core_zpemv` promises for the columnwise case (core_blas/core_zpemv.c:22-34):
`y := alpha op(A) x + beta y`, the lower triangle of `A2` not being referenced. -/
theorem zpemv_col [DecidableEq α] {t : Trans} (ht : t = .conjTrans) {m n l : Nat} (hm : 0 < m) (hlm : l ≤ m) (hln : l ≤ n)
    {alpha beta : α} (h : ¬ (alpha = 0 ∧ beta = 0)) (A : Tl α) (X Y W : Nat → α) {p : Nat} (hp : p < n) :
    zpemv t .columnwise m n l alpha A X beta Y W p =
      alpha * ∑ q ∈ range m, star (pent .columnwise m l A q p) * X q + beta * Y p := by
  subst ht
  have e1 : ∀ q, q < m → pent .columnwise m l A q p = pent .columnwise m (if l = 1 then 0 else l) A q p := by
    intro q hq
    unfold pent
    split_ifs <;> first | rfl | omega
  rw [sum_congr rfl fun q hq => by rw [e1 q (mem_range.1 hq)]]
  unfold zpemv
  rw [if_neg (by omega), if_neg h]
  dsimp only
  rw [if_pos rfl, if_neg (by decide)]
  have hl1 : (if l = 1 then 0 else l) ≤ m ∧ (if l = 1 then 0 else l) ≤ n := by split_ifs <;> omega
  generalize (if l = 1 then 0 else l) = l at hl1 ⊢
  obtain ⟨hlm, hln⟩ := hl1
  have ev : ∀ q, vc .columnwise A q p = A q p := fun q => rfl
  by_cases hpl : p < l
  · have key : ∑ q ∈ range m, star (pent .columnwise m l A q p) * X q =
        ∑ q ∈ range (m - l), star (A q p) * X q +
        ∑ q ∈ range l, opE .conjTrans (trE .upper .nonUnit (sub (m - l) 0 A)) p q * X (m - l + q) := by
      rw [sum_split hlm]
      congr 1
      · refine sum_congr rfl fun q hq => ?_
        have := mem_range.1 hq
        unfold pent
        rw [if_neg (by omega), ev]
      · refine sum_congr rfl fun q hq => ?_
        congr 1
        unfold pent
        simp only [opE, trE, Pent.sub, inTri, reduceCtorEq, if_false, Nat.zero_add, ev]
        split_ifs <;> first | omega | rfl
    have ew : ∀ w : Nat → α, trmvF .upper .conjTrans l (sub (m - l) 0 A) (copyV l (fun p => X (m - l + p)) w) p =
        ∑ q ∈ range l, opE .conjTrans (trE .upper .nonUnit (sub (m - l) 0 A)) p q * X (m - l + q) := by
      intro w
      unfold trmvF
      rw [if_pos hpl]
      refine sum_congr rfl fun q hq => ?_
      unfold copyV
      rw [if_pos (mem_range.1 hq)]
    have hY : ∀ (Y Z : Nat → α), (if l < n then putV l Y Z else Y) p = Y p := by
      intro Y Z
      split_ifs
      · unfold putV; rw [if_neg (by omega)]
      · rfl
    rw [hY, if_pos (show 0 < l by omega), key]
    split_ifs with h1 h2
    · unfold axpyV
      rw [if_pos hpl, ew]
      rw [gemvF_c, if_pos hpl]
      ring
    · unfold copyV scalV
      rw [if_pos hpl, if_pos hpl]
      have := ew W
      unfold copyV at this
      rw [this, h2, show m - l = 0 by omega]
      simp
    · unfold axpyV scalV
      rw [if_pos hpl, if_pos hpl, ew, show m - l = 0 by omega]
      simp only [range_zero, sum_empty, zero_add]
      ring
  · rw [if_pos (show l < n by omega)]
    unfold putV
    rw [if_pos (by omega), gemvF_c, if_pos (by omega)]
    have e2 : ∀ q, pent .columnwise m l A q p = sub 0 l A q (p - l) := by
      intro q
      unfold pent
      rw [if_neg (by omega), ev]
      simp only [Pent.sub, Nat.zero_add, show l + (p - l) = p by omega]
    simp only [e2]
    congr 2
    rw [show l + (p - l) = p by omega]
    split_ifs
    · unfold axpyV
      rw [if_neg hpl, gemvF_c, if_neg hpl]
    · unfold copyV
      rw [if_neg hpl]
    · unfold axpyV scalV
      rw [if_neg hpl, if_neg hpl]
    · rfl

/-- The rowwise case: `A` holds the conjugates of the reflectors in rows. -/
theorem zpemv_row [DecidableEq α] {m n l : Nat} (hn : 0 < n) (hlm : l ≤ m) (hln : l ≤ n)
    {alpha beta : α} (h : ¬ (alpha = 0 ∧ beta = 0)) (A : Tl α) (X Y W : Nat → α) {p : Nat} (hp : p < m) :
    zpemv .noTrans .rowwise m n l alpha A X beta Y W p =
      alpha * ∑ q ∈ range n, star (pent .rowwise n l A q p) * X q + beta * Y p := by
  have e1 : ∀ q, q < n → pent .rowwise n l A q p = pent .rowwise n (if l = 1 then 0 else l) A q p := by
    intro q hq
    unfold pent
    split_ifs <;> first | rfl | omega
  rw [sum_congr rfl fun q hq => by rw [e1 q (mem_range.1 hq)]]
  unfold zpemv
  rw [if_neg (by omega), if_neg h]
  dsimp only
  rw [if_neg (by decide), if_pos rfl]
  have hl1 : (if l = 1 then 0 else l) ≤ m ∧ (if l = 1 then 0 else l) ≤ n := by split_ifs <;> omega
  generalize (if l = 1 then 0 else l) = l at hl1 ⊢
  obtain ⟨hlm, hln⟩ := hl1
  have ev : ∀ q, star (vc .rowwise A q p) = A p q := fun q => by simp [vc, cT]
  by_cases hpl : p < l
  · have key : ∑ q ∈ range n, star (pent .rowwise n l A q p) * X q =
        ∑ q ∈ range (n - l), A p q * X q +
        ∑ q ∈ range l, opE .noTrans (trE .lower .nonUnit (sub 0 (n - l) A)) p q * X (n - l + q) := by
      rw [sum_split hln]
      congr 1
      · refine sum_congr rfl fun q hq => ?_
        have := mem_range.1 hq
        unfold pent
        rw [if_neg (by omega), ev]
      · refine sum_congr rfl fun q hq => ?_
        congr 1
        unfold pent
        simp only [opE, trE, Pent.sub, inTri, reduceCtorEq, if_false, Nat.zero_add, apply_ite star, ev, star_zero]
        split_ifs <;> first | omega | rfl
    have ew : ∀ w : Nat → α, trmvF .lower .noTrans l (sub 0 (n - l) A) (copyV l (fun p => X (n - l + p)) w) p =
        ∑ q ∈ range l, opE .noTrans (trE .lower .nonUnit (sub 0 (n - l) A)) p q * X (n - l + q) := by
      intro w
      unfold trmvF
      rw [if_pos hpl]
      refine sum_congr rfl fun q hq => ?_
      unfold copyV
      rw [if_pos (mem_range.1 hq)]
    have hY : ∀ (Y Z : Nat → α), (if l < m then putV l Y Z else Y) p = Y p := by
      intro Y Z
      split_ifs
      · unfold putV; rw [if_neg (by omega)]
      · rfl
    rw [hY, if_pos (show 0 < l by omega), key]
    split_ifs with h1 h2
    · unfold axpyV
      rw [if_pos hpl, ew]
      rw [gemvF_n, if_pos hpl]
      ring
    · unfold copyV scalV
      rw [if_pos hpl, if_pos hpl]
      have := ew W
      unfold copyV at this
      rw [this, h2, show n - l = 0 by omega]
      simp
    · unfold axpyV scalV
      rw [if_pos hpl, if_pos hpl, ew, show n - l = 0 by omega]
      simp only [range_zero, sum_empty, zero_add]
      ring
  · rw [if_pos (show l < m by omega)]
    unfold putV
    rw [if_pos (by omega), gemvF_n, if_pos (by omega)]
    have e2 : ∀ q, star (pent .rowwise n l A q p) = sub l 0 A (p - l) q := by
      intro q
      unfold pent
      rw [if_neg (by omega), ev]
      simp only [Pent.sub, Nat.zero_add, show l + (p - l) = p by omega]
    simp only [e2]
    congr 2
    rw [show l + (p - l) = p by omega]
    split_ifs
    · unfold axpyV
      rw [if_neg hpl, gemvF_n, if_neg hpl]
    · unfold copyV
      rw [if_neg hpl]
    · unfold axpyV scalV
      rw [if_neg hpl, if_neg hpl]
    · rfl

/-- Elements behind the result are left alone. -/
theorem zpemv_out [DecidableEq α] (m n l : Nat) (hln : l ≤ n) (alpha beta : α) (A : Tl α) (X Y W : Nat → α) {p : Nat} (hp : ¬ p < n) :
    zpemv .conjTrans .columnwise m n l alpha A X beta Y W p = Y p := by
  unfold zpemv
  by_cases h1 : m = 0 ∨ n = 0
  · rw [if_pos h1]
  by_cases h2 : alpha = 0 ∧ beta = 0
  · rw [if_neg h1, if_pos h2]
  rw [if_neg h1, if_neg h2]
  dsimp only
  have hl1 : (if l = 1 then 0 else l) ≤ n := by split_ifs <;> omega
  generalize (if l = 1 then 0 else l) = l at hl1 ⊢
  rw [if_pos rfl, if_neg (by decide)]
  have hpl : ¬ p < l := by omega
  have key : ∀ q, ¬ q < l → (if 0 < l then
      if l < m then axpyV l alpha (trmvF .upper .conjTrans l (sub (m - l) 0 A) (copyV l (fun p => X (m - l + p)) W))
          (gemvF .conjTrans (m - l) l alpha A X beta Y)
      else if beta = 0 then copyV l (scalV l alpha (trmvF .upper .conjTrans l (sub (m - l) 0 A) (copyV l (fun p => X (m - l + p)) W))) Y
        else axpyV l alpha (trmvF .upper .conjTrans l (sub (m - l) 0 A) (copyV l (fun p => X (m - l + p)) W)) (scalV l beta Y)
      else Y) q = Y q := by
    intro q hq
    split_ifs
    · unfold axpyV
      rw [if_neg hq, gemvF_c, if_neg hq]
    · unfold copyV
      rw [if_neg hq]
    · unfold axpyV scalV
      rw [if_neg hq, if_neg hq]
    · rfl
  by_cases hln : l < n
  · rw [if_pos hln]
    unfold putV
    rw [if_pos (by omega), gemvF_c, if_neg (by omega), show l + (p - l) = p by omega]
    exact key p hpl
  · rw [if_neg hln]
    exact key p hpl

theorem zpemv_out_row [DecidableEq α] (m n l : Nat) (hlm : l ≤ m) (alpha beta : α) (A : Tl α) (X Y W : Nat → α) {p : Nat} (hp : ¬ p < m) :
    zpemv .noTrans .rowwise m n l alpha A X beta Y W p = Y p := by
  unfold zpemv
  by_cases h1 : m = 0 ∨ n = 0
  · rw [if_pos h1]
  by_cases h2 : alpha = 0 ∧ beta = 0
  · rw [if_neg h1, if_pos h2]
  rw [if_neg h1, if_neg h2]
  dsimp only
  have hl1 : (if l = 1 then 0 else l) ≤ m := by split_ifs <;> omega
  generalize (if l = 1 then 0 else l) = l at hl1 ⊢
  rw [if_neg (by decide), if_pos rfl]
  have hpl : ¬ p < l := by omega
  have key : ∀ q, ¬ q < l → (if 0 < l then
      if l < n then axpyV l alpha (trmvF .lower .noTrans l (sub 0 (n - l) A) (copyV l (fun p => X (n - l + p)) W))
          (gemvF .noTrans l (n - l) alpha A X beta Y)
      else if beta = 0 then copyV l (scalV l alpha (trmvF .lower .noTrans l (sub 0 (n - l) A) (copyV l (fun p => X (n - l + p)) W))) Y
        else axpyV l alpha (trmvF .lower .noTrans l (sub 0 (n - l) A) (copyV l (fun p => X (n - l + p)) W)) (scalV l beta Y)
      else Y) q = Y q := by
    intro q hq
    split_ifs
    · unfold axpyV
      rw [if_neg hq, gemvF_n, if_neg hq]
    · unfold copyV
      rw [if_neg hq]
    · unfold axpyV scalV
      rw [if_neg hq, if_neg hq]
    · rfl
  by_cases hlm : l < m
  · rw [if_pos hlm]
    unfold putV
    rw [if_pos (by omega), gemvF_n, if_neg (by omega), show l + (p - l) = p by omega]
    exact key p hpl
  · rw [if_neg hlm]
    exact key p hpl

/-- The quick return leaves `Y` unchanged, though `alpha op(A) x + beta y` is zero. -/
theorem zpemv_zero [DecidableEq α] (t : Trans) (st : Storev) (m n l : Nat) (A : Tl α) (X Y W : Nat → α) :
    zpemv t st m n l 0 A X 0 Y W = Y := by
  unfold zpemv
  by_cases h : m = 0 ∨ n = 0
  · rw [if_pos h]
  · rw [if_neg h, if_pos ⟨rfl, rfl⟩]

end

section
variable {𝕜 : Type v} [RCLike 𝕜]

/-! ### The kernels -/

/-- `LAPACKE_zlarfg_work(k, &a, x, ..)` (LAPACK documentation): the new `a`, the new vector, `tau`. -/
noncomputable def larfg (k : Nat) (a : 𝕜) (x : Nat → 𝕜) : 𝕜 × (Nat → 𝕜) × 𝕜 :=
  let x2 : ℝ := ∑ q ∈ range (k - 1), ‖x q‖ ^ 2
  (lbet a x2, fun q => if q < k - 1 then x q * lscal a x2 else x q, ltau a x2)

/-- The two tiles and `T`. -/
structure FSt (𝕜 : Type v) where
  A1 : Tl 𝕜
  A2 : Tl 𝕜
  T : Tl 𝕜

/-- Reflector `j` applied from the left to the next `ni` columns (core_blas/core_ztsqrt.c:157-179,
core_blas/core_zttqrt.c:160-190). -/
def applyQr (mi ni j : Nat) (tau : 𝕜) (A1 A2 : Tl 𝕜) : Tl 𝕜 × Tl 𝕜 :=
  let w : Nat → 𝕜 := fun p => A1 j (j + 1 + p)
  let w := lacgvF ni w
  let w := gemvF .conjTrans mi ni 1 (sub 0 (j + 1) A2) (fun q => A2 q j) 1 w
  let w := lacgvF ni w
  let alpha := -star tau
  let A1 := setRow A1 j (putV (j + 1) (A1 j) (axpyV ni alpha w (fun p => A1 j (j + 1 + p))))
  let w := lacgvF ni w
  let A2 := put 0 (j + 1) A2 (gercF mi ni alpha (fun q => A2 q j) w (sub 0 (j + 1) A2))
  (A1, A2)

/-- Body of the loop over the columns of a block in `plasma_core_ztsqrt` (core_blas/core_ztsqrt.c:148-197). -/
noncomputable def tsqrtCol (m n ii sb i : Nat) (s : FSt 𝕜) : FSt 𝕜 :=
  let h := larfg (m + 1) (s.A1 (ii + i) (ii + i)) (fun q => s.A2 q (ii + i))
  let A1 := setAt s.A1 (ii + i) (ii + i) h.1
  let A2 := setCol s.A2 (ii + i) h.2.1
  let tau := h.2.2
  let a := if ii + i + 1 < n then applyQr m (sb - i - 1) (ii + i) tau A1 A2 else (A1, A2)
  let y := gemvF .conjTrans m i (-tau) (sub 0 ii a.2) (fun q => a.2 q (ii + i)) 0 (fun p => s.T p (ii + i))
  let y := trmvF .upper .noTrans i (sub 0 ii s.T) y
  ⟨a.1, a.2, setAt (setCol s.T (ii + i) y) i (ii + i) tau⟩

/-- `plasma_core_ztsqrt` (core_blas/core_ztsqrt.c:86-210), after the checks of the arguments; `none` if a call of BLAS is
rejected.  The contents of `work` are not followed from one statement to the next: every use starts by overwriting it
(`W` is what the update of the block finds there). -/
noncomputable def ztsqrt (m n ib : Nat) (W A1 A2 T : Tl 𝕜) : Option (FSt 𝕜) :=
  if m = 0 ∨ n = 0 ∨ ib = 0 then some ⟨A1, A2, T⟩
  else
    iter (fun ii s =>
        let sb := min (n - ii) ib
        let s := (List.range sb).foldl (fun s i => tsqrtCol m n ii sb i s) s
        if ii + sb < n then
          (ztsmqr .left .conjTrans sb (n - (ii + sb)) m (n - (ii + sb)) ib ib sb (sub 0 ii s.A2) (sub 0 ii s.T)
            (sub ii (ii + sb) s.A1, sub 0 (ii + sb) s.A2, W)).map
            fun r => ⟨put ii (ii + sb) s.A1 r.1, put 0 (ii + sb) s.A2 r.2.1, s.T⟩
        else some s)
      (blocks true n ib) ⟨A1, A2, T⟩

open Classical in
/-- Body of the loop over the columns of a block in `plasma_core_zttqrt` (core_blas/core_zttqrt.c:149-216). -/
noncomputable def ttqrtCol (m ii sb i : Nat) (s : FSt 𝕜) : FSt 𝕜 :=
  let j := ii + i
  let mi := min (j + 1) m
  let ni := sb - i - 1
  let h := larfg (mi + 1) (s.A1 j j) (fun q => s.A2 q j)
  let A1 := setAt s.A1 j j h.1
  let A2 := setCol s.A2 j h.2.1
  let tau := h.2.2
  let a := if 0 < ni then applyQr mi ni j tau A1 A2 else (A1, A2)
  let T := if 0 < i then
      let l := min i (max 0 (m - ii))
      let y := zpemv .conjTrans .columnwise (min j m) i l (-tau) (sub 0 ii a.2) (fun q => a.2 q j) 0
        (fun p => s.T p j) (fun _ => 0)
      let y := trmvF .upper .noTrans i (sub 0 ii s.T) y
      setCol s.T j y
    else s.T
  ⟨a.1, a.2, setAt T i j tau⟩

/-- `plasma_core_zttqrt` (core_blas/core_zttqrt.c:86-236), after the checks of the arguments, as `ztsqrt`. -/
noncomputable def zttqrt (m n ib : Nat) (W A1 A2 T : Tl 𝕜) : Option (FSt 𝕜) :=
  if m = 0 ∨ n = 0 ∨ ib = 0 then some ⟨A1, A2, T⟩
  else
    iter (fun ii s =>
        let sb := min (n - ii) ib
        let s := (List.range sb).foldl (fun s i => ttqrtCol m ii sb i s) s
        if ii + sb < n then
          let mi := min (ii + sb) m
          let ni := n - (ii + sb)
          let l := min sb (max 0 (mi - ii))
          (zparfb .left .conjTrans .columnwise ib ni mi ni sb l sb (sub ii (ii + sb) s.A1) (sub 0 (ii + sb) s.A2)
            (sub 0 ii s.A2) (sub 0 ii s.T) W).map
            fun r => ⟨put ii (ii + sb) s.A1 r.1, put 0 (ii + sb) s.A2 r.2.1, s.T⟩
        else some s)
      (blocks true n ib) ⟨A1, A2, T⟩

/-! ### One column -/

/-- Number of rows of the second tile that reflector `j` acts on. -/
def rowsV (tri : Bool) (m j : Nat) : Nat := if tri then min (j + 1) m else m

/-- Support of the reflectors of a stack. -/
def sup2 (tri : Bool) (n m : Nat) : Sup := if tri then ttSup n m else tsSup n

theorem sup2_iff {tri : Bool} {n m j q : Nat} (hj : j < n) (hq : q < m) : sup2 tri n m j (n + q) = true ↔ q < rowsV tri m j := by
  cases tri
  · simp only [sup2, rowsV, tsSup, Bool.false_eq_true, if_false, decide_eq_true_eq]; omega
  · simp only [sup2, rowsV, ttSup, if_true, decide_eq_true_eq]; omega

theorem sup2_top {tri : Bool} {n m j r : Nat} (hr : r < n) : ¬ sup2 tri n m j r = true := by
  cases tri
  · simp only [sup2, tsSup, Bool.false_eq_true, if_false, decide_eq_true_eq]; omega
  · simp only [sup2, ttSup, if_true, decide_eq_true_eq]; omega

theorem sum_stack {β : Type v} [AddCommMonoid β] (n m : Nat) (f : Nat → β) :
    ∑ l : Fin (n + m), f l = ∑ r ∈ range n, f r + ∑ q ∈ range m, f (n + q) := by
  rw [Fin.sum_univ_eq_sum_range f, Finset.sum_range_add]

/-- Agreement of the arrays of the kernel with the stack, `J` columns being done. -/
structure Rel (tri : Bool) (n m ib J : Nat) (T0 : Tl 𝕜) (s : FSt 𝕜) (h : HSt 𝕜) : Prop where
  a1 : ∀ r c, r ≤ c → c < n → s.A1 r c = h.X r c
  a2 : ∀ q c, c < n → q < rowsV tri m c → s.A2 q c = h.X (n + q) c
  t : ∀ c, c < J → ∀ l, l ≤ c % ib → s.T l c = h.T l c
  keep : ∀ c, J ≤ c → ∀ l, s.T l c = T0 l c

theorem applyQr_1 (mi ni j : Nat) (tau : 𝕜) (A1 A2 : Tl 𝕜) (r c : Nat) :
    (applyQr mi ni j tau A1 A2).1 r c = if r = j ∧ j < c ∧ c < j + 1 + ni then
      A1 j c - star tau * (A1 j c + ∑ q ∈ range mi, star (A2 q j) * A2 q c) else A1 r c := by
  unfold applyQr
  dsimp only
  unfold setRow
  by_cases hr : r = j
  · subst hr
    rw [if_pos rfl]
    unfold putV axpyV
    by_cases hc : r < c ∧ c < r + 1 + ni
    · rw [if_pos (by omega), if_pos (by omega), if_pos ⟨rfl, hc⟩]
      unfold lacgvF
      rw [if_pos (by omega), gemvF_c, if_pos (by omega), if_pos (by omega)]
      unfold Pent.sub
      simp only [show r + 1 + (c - (r + 1)) = c by omega, Nat.zero_add, one_mul, star_add, star_sum, star_mul', star_star]
      rw [sum_congr rfl fun q _ => mul_comm (A2 q c) _]
      ring
    · rw [if_neg (show ¬ (r = r ∧ r < c ∧ c < r + 1 + ni) by omega)]
      split_ifs
      · omega
      · dsimp only
        rw [show r + 1 + (c - (r + 1)) = c by omega]
      · rfl
  · rw [if_neg hr, if_neg (by tauto)]

theorem applyQr_2 (mi ni j : Nat) (tau : 𝕜) (A1 A2 : Tl 𝕜) (q c : Nat) :
    (applyQr mi ni j tau A1 A2).2 q c = if q < mi ∧ j < c ∧ c < j + 1 + ni then
      A2 q c - A2 q j * (star tau * (A1 j c + ∑ q ∈ range mi, star (A2 q j) * A2 q c)) else A2 q c := by
  unfold applyQr
  dsimp only
  unfold put gercF
  by_cases hc : q < mi ∧ j < c ∧ c < j + 1 + ni
  · rw [if_pos (by omega), if_pos (by omega), if_pos hc]
    unfold Pent.sub lacgvF
    rw [if_pos (by omega), gemvF_c, if_pos (by omega), if_pos (by omega), if_pos (by omega)]
    simp only [show j + 1 + (c - (j + 1)) = c by omega, Nat.zero_add, Nat.sub_zero, one_mul, star_add, star_sum, star_mul',
      star_star]
    rw [sum_congr rfl fun q _ => mul_comm (A2 q c) _]
    ring
  · rw [if_neg hc]
    unfold Pent.sub
    split_ifs
    · omega
    · rw [Nat.zero_add, Nat.sub_zero, show j + 1 + (c - (j + 1)) = c by omega]
    · rfl

/-- The part of `T` computed from `T` times the vector `y`. -/
theorem trmv_at (ii i : Nat) (T : Tl 𝕜) (y : Nat → 𝕜) {l : Nat} (hl : l < i) :
    trmvF .upper .noTrans i (sub 0 ii T) y l = ∑ p ∈ range i, if l ≤ p then T l (ii + p) * y p else 0 := by
  unfold trmvF
  rw [if_pos hl]
  refine sum_congr rfl fun p _ => ?_
  simp only [opE, trE, Pent.sub, inTri, Nat.zero_add, reduceCtorEq, if_false]
  split_ifs <;> first | omega | simp

theorem rowsV_le (tri : Bool) (m j : Nat) : rowsV tri m j ≤ m := by
  unfold rowsV; split <;> omega

theorem sum_rowsV {β : Type v} [AddCommMonoid β] {tri : Bool} {n m j : Nat} (hj : j < n) (f : Nat → β) :
    ∑ q ∈ range m, (if sup2 tri n m j (n + q) then f q else 0) = ∑ q ∈ range (rowsV tri m j), f q := by
  have h := rowsV_le tri m j
  rw [show range m = range (rowsV tri m j + (m - rowsV tri m j)) by congr 1; omega, Finset.sum_range_add]
  rw [Finset.sum_eq_zero (s := range (m - _)), add_zero]
  · refine sum_congr rfl fun q hq => ?_
    have := mem_range.1 hq
    rw [if_pos ((sup2_iff hj (by omega)).2 this)]
  · intro q hq
    have := mem_range.1 hq
    rw [if_neg fun e => by have := (sup2_iff hj (by omega)).1 e; omega]

theorem xn2_stack {tri : Bool} {n m j : Nat} (hj : j < n) (X : Tl 𝕜) :
    xn2 (n + m) (sup2 tri n m) j X = ∑ q ∈ range (rowsV tri m j), ‖X (n + q) j‖ ^ 2 := by
  unfold xn2
  rw [Finset.sum_range_add, Finset.sum_eq_zero (s := range n), zero_add]
  · exact sum_rowsV hj fun q => ‖X (n + q) j‖ ^ 2
  · intro r hr
    rw [if_neg (sup2_top (mem_range.1 hr))]

/-- The reflectors in the rows of the first tile. -/
theorem hvec_top {tri : Bool} {n m j r : Nat} (X : Tl 𝕜) (hr : r < n) :
    hvec (sup2 tri n m) X r j = if r = j then 1 else 0 := by
  unfold hvec
  rw [if_neg (sup2_top hr)]

/-- The reflectors in the rows of the second tile. -/
theorem hvec_low {tri : Bool} {n m j q : Nat} (X : Tl 𝕜) (hj : j < n) :
    hvec (sup2 tri n m) X (n + q) j = if sup2 tri n m j (n + q) then X (n + q) j else 0 := by
  unfold hvec
  rw [if_neg (by omega)]

/-- Product of a reflector and a column. -/
theorem dot_hvec {tri : Bool} {n m j : Nat} (hj : j < n) (X : Tl 𝕜) (y : Nat → 𝕜) :
    ∑ l : Fin (n + m), star (hvec (sup2 tri n m) X l j) * y l =
      y j + ∑ q ∈ range (rowsV tri m j), star (X (n + q) j) * y (n + q) := by
  rw [sum_stack n m fun l => star (hvec (sup2 tri n m) X l j) * y l]
  congr 1
  · refine (Finset.sum_eq_single j ?_ ?_).trans ?_
    · intro r hr hrj
      rw [hvec_top X (mem_range.1 hr), if_neg hrj, star_zero, zero_mul]
    · intro h; exact absurd (mem_range.2 hj) h
    · rw [hvec_top X hj, if_pos rfl, star_one, one_mul]
  · rw [← sum_rowsV hj]
    refine sum_congr rfl fun q _ => ?_
    rw [hvec_low X hj]
    split_ifs
    · rfl
    · rw [star_zero, zero_mul]

/-- One column of a kernel, given the vector `y` of which the new column of `T` is made. -/
theorem col_rel {tri : Bool} {n m ib ii i sb : Nat} (hi : i < sb) (hsb : sb ≤ ib) (hn : ii + sb ≤ n) (hii : ii % ib = 0)
    {T0 : Tl 𝕜} {s s' : FSt 𝕜} {h : HSt 𝕜} (hR : Rel tri n m ib (ii + i) T0 s h) {tau : 𝕜} {y : Nat → 𝕜}
    (htau : tau = (larfg (rowsV tri m (ii + i) + 1) (s.A1 (ii + i) (ii + i)) fun q => s.A2 q (ii + i)).2.2)
    (h1 : ∀ r c, r ≤ c → c < n → s'.A1 r c = (applyQr (rowsV tri m (ii + i)) (sb - i - 1) (ii + i) tau
      (setAt s.A1 (ii + i) (ii + i)
        (larfg (rowsV tri m (ii + i) + 1) (s.A1 (ii + i) (ii + i)) fun q => s.A2 q (ii + i)).1)
      (setCol s.A2 (ii + i)
        (larfg (rowsV tri m (ii + i) + 1) (s.A1 (ii + i) (ii + i)) fun q => s.A2 q (ii + i)).2.1)).1 r c)
    (h2 : ∀ q c, c < n → q < rowsV tri m c → s'.A2 q c = (applyQr (rowsV tri m (ii + i)) (sb - i - 1) (ii + i) tau
      (setAt s.A1 (ii + i) (ii + i)
        (larfg (rowsV tri m (ii + i) + 1) (s.A1 (ii + i) (ii + i)) fun q => s.A2 q (ii + i)).1)
      (setCol s.A2 (ii + i)
        (larfg (rowsV tri m (ii + i) + 1) (s.A1 (ii + i) (ii + i)) fun q => s.A2 q (ii + i)).2.1)).2 q c)
    (hy : ∀ p, p < i → y p = -tau * ∑ q ∈ range (rowsV tri m (ii + p)), star (s'.A2 q (ii + p)) * s'.A2 q (ii + i))
    (hT : ∀ l c, s'.T l c = if c = ii + i ∧ l = i then tau else if c = ii + i ∧ l < i then
      ∑ p ∈ range i, (if l ≤ p then s.T l (ii + p) * y p else 0) else s.T l c) :
    Rel tri n m ib (ii + i + 1) T0 s' (hcol (n + m) (sup2 tri n m) ii (ii + sb) (ii + i) h) ∧
      tau = ltau (h.X (ii + i) (ii + i)) (xn2 (n + m) (sup2 tri n m) (ii + i) h.X) := by
  set j := ii + i with hj
  set sup := sup2 tri n m with hsup
  have hjn : j < n := by omega
  have ex : (∑ q ∈ range (rowsV tri m j + 1 - 1), ‖s.A2 q j‖ ^ 2) = xn2 (n + m) sup j h.X := by
    rw [xn2_stack hjn, Nat.add_sub_cancel]
    exact sum_congr rfl fun q hq => by rw [hR.a2 q j hjn (mem_range.1 hq)]
  have ed := hR.a1 j j le_rfl hjn
  have eb : (larfg (rowsV tri m j + 1) (s.A1 j j) fun q => s.A2 q j).1 = lbet (h.X j j) (xn2 (n + m) sup j h.X) := by
    unfold larfg; dsimp only; rw [ex, ed]
  have et : tau = ltau (h.X j j) (xn2 (n + m) sup j h.X) := by
    rw [htau]; unfold larfg; dsimp only; rw [ex, ed]
  have ev : ∀ q, q < rowsV tri m j → (larfg (rowsV tri m j + 1) (s.A1 j j) fun q => s.A2 q j).2.1 q =
      larfgCol (n + m) sup j h.X (n + q) j := by
    intro q hq
    unfold larfg larfgCol
    dsimp only
    rw [if_pos (by omega), ex, ed, if_pos rfl, if_neg (by omega),
      if_pos ((sup2_iff hjn (by have := rowsV_le tri m j; omega)).2 hq), hR.a2 q j hjn hq]
  set v := (larfg (rowsV tri m j + 1) (s.A1 j j) fun q => s.A2 q j).2.1 with hv
  set X1 := larfgCol (n + m) sup j h.X with hX1
  have eX : ∀ r c, c ≠ j → X1 r c = h.X r c := fun r c hc => by rw [hX1]; unfold larfgCol; rw [if_neg hc]
  have hX' : ∀ r c, (hcol (n + m) sup ii (ii + sb) j h).X r c = if j < c ∧ c < ii + sb ∧ r < n + m then
      X1 r c - hvec sup X1 r j * (star tau * (X1 j c + ∑ q ∈ range (rowsV tri m j), star (X1 (n + q) j) * X1 (n + q) c))
      else X1 r c := by
    intro r c
    rw [et, ← dot_hvec hjn X1 fun l => X1 l c]
    rfl
  have mono : ∀ c, j ≤ c → rowsV tri m j ≤ rowsV tri m c := fun c hc => by unfold rowsV; split <;> omega
  -- the second tile up to column `j`
  have hA2j : ∀ q c, c ≤ j → q < rowsV tri m c → s'.A2 q c = X1 (n + q) c := by
    intro q c hc hq
    rw [h2 q c (by omega) hq, applyQr_2, if_neg (by omega)]
    unfold setCol
    by_cases hcj : c = j
    · subst hcj
      rw [if_pos rfl, ev q hq]
    · rw [if_neg hcj, eX _ _ hcj, hR.a2 q c (by omega) hq]
  have dot : ∀ c, j < c → c < n → setAt s.A1 j j (larfg (rowsV tri m j + 1) (s.A1 j j) fun q => s.A2 q j).1 j c +
      ∑ q ∈ range (rowsV tri m j), star (setCol s.A2 j v q j) * setCol s.A2 j v q c =
      X1 j c + ∑ q ∈ range (rowsV tri m j), star (X1 (n + q) j) * X1 (n + q) c := by
    intro c hc hcn
    congr 1
    · unfold setAt
      rw [if_neg (by omega), eX _ _ (by omega), hR.a1 j c (by omega) hcn]
    · refine sum_congr rfl fun q hq => ?_
      have hq := mem_range.1 hq
      unfold setCol
      rw [if_pos rfl, if_neg (by omega), ev q hq, eX _ c (by omega),
        hR.a2 q c hcn (by have := mono c (by omega); omega)]
  refine ⟨⟨?_, ?_, ?_, ?_⟩, et⟩
  · intro r c hrc hcn
    rw [h1 r c hrc hcn, applyQr_1, hX']
    by_cases hc : j < c ∧ c < ii + sb
    · rw [if_pos (show j < c ∧ c < ii + sb ∧ r < n + m by omega), dot c hc.1 hcn, hvec_top X1 (by omega)]
      by_cases hr : r = j
      · subst hr
        rw [if_pos (by omega), if_pos rfl, one_mul]
        congr 1
        unfold setAt
        rw [if_neg (by omega), eX _ _ (by omega), hR.a1 _ c (by omega) hcn]
      · rw [if_neg (by omega), if_neg hr, zero_mul, sub_zero]
        unfold setAt
        rw [if_neg (by omega), eX _ _ (by omega), hR.a1 _ c hrc hcn]
    · rw [if_neg (by omega), if_neg (by omega)]
      unfold setAt
      by_cases hcj : c = j
      · subst hcj
        rw [hX1]
        unfold larfgCol
        rw [if_pos rfl]
        by_cases hr : r = j
        · rw [if_pos ⟨hr, rfl⟩, if_pos hr, eb]
        · rw [if_neg (by omega), if_neg hr, if_neg (sup2_top (by omega)), hR.a1 r j hrc hcn]
      · rw [if_neg (by omega), eX _ _ hcj, hR.a1 r c hrc hcn]
  · intro q c hcn hq
    by_cases hcj : c ≤ j
    · rw [hA2j q c hcj hq, hX', if_neg (by omega)]
    · have hqm := rowsV_le tri m c
      rw [h2 q c hcn hq, applyQr_2, hX']
      have e3 : setCol s.A2 j v q c = X1 (n + q) c := by
        unfold setCol
        rw [if_neg (by omega), eX _ _ (by omega), hR.a2 q c hcn hq]
      by_cases hc : c < ii + sb
      · rw [if_pos (show j < c ∧ c < ii + sb ∧ n + q < n + m by omega), hvec_low X1 hjn]
        by_cases hqj : q < rowsV tri m j
        · rw [if_pos (by omega), dot c (by omega) hcn, if_pos ((sup2_iff hjn (by omega)).2 hqj), e3]
          congr 2
          unfold setCol
          rw [if_pos rfl, ev q hqj]
        · rw [if_neg (by omega), if_neg (fun e => hqj ((sup2_iff hjn (by omega)).1 e)), zero_mul, sub_zero, e3]
      · rw [if_neg (by omega), if_neg (by omega), e3]
  · intro c hc l hl
    have hmod : ∀ x, x < ib → (ii + x) % ib = x := fun x hx => by
      rw [Nat.add_mod, hii, Nat.zero_add, Nat.mod_mod, Nat.mod_eq_of_lt hx]
    rw [hT]
    by_cases hcj : c = j
    · subst hcj
      rw [hj, hmod i (by omega)] at hl
      have eji : j - ii = i := by omega
      have eT : (hcol (n + m) sup ii (ii + sb) j h).T l j = if l = i then tau else ∑ p ∈ range i,
          if l ≤ p then h.T l (ii + p) * (-tau * ∑ q : Fin (n + m), star (hvec sup X1 q (ii + p)) * hvec sup X1 q j)
          else 0 := by
        show (if _ then _ else _) = _
        rw [eji, if_pos ⟨rfl, hl⟩, ← et]
      rw [eT]
      by_cases hli : l = i
      · rw [if_pos ⟨rfl, hli⟩, if_pos hli]
      · rw [if_neg (by omega), if_pos ⟨rfl, by omega⟩, if_neg hli]
        refine sum_congr rfl fun p hp => ?_
        have hp := mem_range.1 hp
        split_ifs with hlp
        · rw [hR.t (ii + p) (by omega) l (by rw [hmod p (by omega)]; exact hlp), hy p hp]
          congr 2
          rw [dot_hvec (show ii + p < n by omega) X1 fun q => hvec sup X1 q j, hvec_top X1 (by omega), if_neg (by omega), zero_add]
          refine sum_congr rfl fun q hq => ?_
          have hq := mem_range.1 hq
          have hqj : q < rowsV tri m j := by unfold rowsV at *; split_ifs at * <;> omega
          have := rowsV_le tri m j
          rw [hA2j q _ (by omega) hq, hA2j q j le_rfl hqj, hvec_low X1 hjn, if_pos ((sup2_iff hjn (by omega)).2 hqj)]
        · rfl
    · rw [if_neg (by omega), if_neg (by omega), hcol_T_ne hcj]
      exact hR.t c (by omega) l hl
  · intro c hc l
    rw [hT, if_neg (by omega), if_neg (by omega)]
    exact hR.keep c (by omega) l

/-! ### The block behind -/

/-- `T^H (A1 + V^H A2)` for a block of `kb` reflectors that starts at column `ii`. -/
def wB (tri : Bool) (m ii kb : Nat) (A1 A2 T : Tl 𝕜) (p c : Nat) : 𝕜 :=
  ∑ p' ∈ range kb, opE .conjTrans (trE .upper .nonUnit (sub 0 ii T)) p p' *
    (A1 (ii + p') c + ∑ q ∈ range m, star (vt tri A2 q (ii + p')) * A2 q c)

/-- The update of the columns behind a block. -/
theorem blk_rel {tri : Bool} {n m ib b : Nat} (hbn : b * ib < n) {T0 : Tl 𝕜} {s s' : FSt 𝕜} {h0 : HSt 𝕜}
    (hR : Rel tri n m ib (b * ib + tdim n ib b) T0 s
      (hcols (n + m) (sup2 tri n m) (b * ib) (b * ib + tdim n ib b) (tdim n ib b) h0))
    (hT : s'.T = s.T)
    (h1 : ∀ r c, r ≤ c → c < n → s'.A1 r c = if (b * ib ≤ r ∧ r < b * ib + tdim n ib b) ∧ b * ib + tdim n ib b ≤ c then
      s.A1 r c - wB tri m (b * ib) (tdim n ib b) s.A1 s.A2 s.T (r - b * ib) c else s.A1 r c)
    (h2 : ∀ q c, c < n → q < rowsV tri m c → s'.A2 q c = if b * ib + tdim n ib b ≤ c then
      s.A2 q c - ∑ p ∈ range (tdim n ib b), vt tri s.A2 q (b * ib + p) *
        wB tri m (b * ib) (tdim n ib b) s.A1 s.A2 s.T p c else s.A2 q c) :
    Rel tri n m ib (b * ib + tdim n ib b) T0 s' (hblk (n + m) n n ib (sup2 tri n m) b h0) := by
  have htd : tdim n ib b ≤ ib ∧ b * ib + tdim n ib b ≤ n := by unfold tdim; omega
  set h := hcols (n + m) (sup2 tri n m) (b * ib) (b * ib + tdim n ib b) (tdim n ib b) h0 with hh
  set sup := sup2 tri n m with hsup
  set kb := tdim n ib b with hkb
  set ii := b * ib with hii
  have hmod : ∀ x, x < ib → (ii + x) % ib = x := fun x hx => by
    rw [hii, Nat.mul_comm, Nat.mul_add_mod, Nat.mod_eq_of_lt hx]
  -- the reflectors
  have hv : ∀ q c, c < n → q < m → vt tri s.A2 q c = hvec sup h.X (n + q) c := by
    intro q c hc hq
    rw [hvec_low h.X hc]
    unfold Pent.vt
    by_cases hs : q < rowsV tri m c
    · rw [if_pos ((sup2_iff hc hq).2 hs), if_neg, hR.a2 q c hc hs]
      unfold rowsV at hs
      intro hh
      rw [if_pos hh.1] at hs
      omega
    · rw [if_neg fun e => hs ((sup2_iff hc hq).1 e), if_pos]
      unfold rowsV at hs
      split_ifs at hs with ht
      · exact ⟨ht, by omega⟩
      · omega
  -- columns behind the block
  have hw : ∀ p c, p < kb → ii + kb ≤ c → c < n → wB tri m ii kb s.A1 s.A2 s.T p c =
      ∑ p' ∈ range kb, opE .conjTrans (trE .upper .nonUnit (sub 0 ii h.T)) p p' *
        ∑ r ∈ range (n + m), star (hvec sup h.X r (ii + p')) * h.X r c := by
    intro p c hp hc hcn
    unfold wB
    refine sum_congr rfl fun p' hp' => ?_
    have hp' := mem_range.1 hp'
    congr 1
    · simp only [opE, trE, Pent.sub, inTri, Nat.zero_add, reduceCtorEq, if_false]
      by_cases hpp : p' ≤ p
      · rw [hR.t (ii + p) (by omega) p' (by rw [hmod p (by omega)]; exact hpp)]
      · rw [if_neg (by omega), if_neg hpp, if_neg (by omega), if_neg hpp]
    · rw [← Fin.sum_univ_eq_sum_range (fun r => star (hvec sup h.X r (ii + p')) * h.X r c),
        dot_hvec (show ii + p' < n by omega) h.X fun r => h.X r c, hR.a1 (ii + p') c (by omega) hcn]
      congr 1
      rw [← sum_rowsV (show ii + p' < n by omega)]
      refine sum_congr rfl fun q hq => ?_
      have hq := mem_range.1 hq
      rw [hv q _ (by omega) hq, hvec_low h.X (by omega)]
      split_ifs with hs
      · rw [hR.a2 q c hcn]
        have := (sup2_iff (show ii + p' < n by omega) hq).1 hs
        unfold rowsV at this ⊢
        split_ifs at this ⊢ <;> omega
      · rw [star_zero, zero_mul]
  have hX : ∀ r c, (hblk (n + m) n n ib sup b h0).X r c = if ii + kb ≤ c ∧ c < n then
      lmul (qop true (wyBlk (n + m) n ib (hvec sup h.X) h.T b)) h.X r c else h.X r c := fun r c => rfl
  refine ⟨?_, ?_, ?_, ?_⟩
  · intro r c hrc hcn
    rw [h1 r c hrc hcn, hX]
    by_cases hc : ii + kb ≤ c
    · rw [if_pos (show ii + kb ≤ c ∧ c < n from ⟨hc, hcn⟩), lmul_wyBlk _ _ _ _ _ (show r < n + m by omega)]
      by_cases hr : ii ≤ r ∧ r < ii + kb
      · rw [if_pos (show (ii ≤ r ∧ r < ii + kb) ∧ ii + kb ≤ c from ⟨hr, hc⟩), hw _ c (by omega) hc hcn, hR.a1 r c hrc hcn]
        congr 1
        refine ((Finset.sum_eq_single (r - ii) ?_ ?_).trans ?_).symm
        · intro q hq hqr
          have := mem_range.1 hq
          rw [hvec_top h.X (by omega), if_neg (by omega), zero_mul]
        · intro hn; exact absurd (mem_range.2 (by omega)) hn
        · rw [hvec_top h.X (by omega), if_pos (by omega), one_mul]
          rfl
      · rw [if_neg (show ¬ ((ii ≤ r ∧ r < ii + kb) ∧ ii + kb ≤ c) by tauto), Finset.sum_eq_zero, sub_zero, hR.a1 r c hrc hcn]
        intro q hq
        have := mem_range.1 hq
        rw [hvec_top h.X (by omega), if_neg (by omega), zero_mul]
    · rw [if_neg (by tauto), if_neg (by omega), hR.a1 r c hrc hcn]
  · intro q c hcn hq
    have hqm := rowsV_le tri m c
    rw [h2 q c hcn hq, hX]
    by_cases hc : ii + kb ≤ c
    · rw [if_pos hc, if_pos ⟨hc, hcn⟩, lmul_wyBlk _ _ _ _ _ (show n + q < n + m by omega), hR.a2 q c hcn hq]
      congr 1
      refine sum_congr rfl fun p hp => ?_
      have := mem_range.1 hp
      rw [hv q _ (by omega) (by omega), hw p c (by omega) hc hcn]
      rfl
    · rw [if_neg hc, if_neg (by tauto), hR.a2 q c hcn hq]
  · intro c hc l hl
    rw [hT]
    exact hR.t c hc l hl
  · intro c hc l
    rw [hT]
    exact hR.keep c hc l

/-- The call that updates the columns behind a block of a QR kernel. -/
theorem parfb_left_blk (tri : Bool) {n m ii kb m1 ldw : Nat} (hm : 0 < m) (hkb : 0 < kb) (hn : ii + kb < n) (hm1 : 0 < m1)
    (hld : kb ≤ ldw) (A1 A2 T W : Tl 𝕜) :
    ∃ r, zparfb .left .conjTrans .columnwise m1 (n - (ii + kb)) (rows2 tri ii kb m) (n - (ii + kb)) kb (ltri tri ii kb m) ldw
        (sub ii (ii + kb) A1) (sub 0 (ii + kb) A2) (sub 0 ii A2) (sub 0 ii T) W = some r ∧
      (∀ r' c, c < n → put ii (ii + kb) A1 r.1 r' c = if (ii ≤ r' ∧ r' < ii + kb) ∧ ii + kb ≤ c then
        A1 r' c - wB tri m ii kb A1 A2 T (r' - ii) c else A1 r' c) ∧
      (∀ q c, q < m → c < n → put 0 (ii + kb) A2 r.2.1 q c = if ii + kb ≤ c then
        A2 q c - ∑ p ∈ range kb, Pent.vt tri A2 q (ii + p) * wB tri m ii kb A1 A2 T p c else A2 q c) := by
  obtain ⟨r, hr, h1, h2⟩ := zparfb_left (.conjTrans) .columnwise (ldw := ldw) hm1 (show 0 < n - (ii + kb) by omega)
    (m2 := rows2 tri ii kb m) (l := ltri tri ii kb m) (by unfold rows2; split <;> omega) hkb
    (by unfold ltri; split <;> omega) (by unfold ltri rows2; split <;> omega) hld
    (sub ii (ii + kb) A1) (sub 0 (ii + kb) A2) (sub 0 ii A2) (sub 0 ii T) W
  have hw : ∀ p c, ii + kb ≤ c → wL .conjTrans .columnwise (rows2 tri ii kb m) kb (ltri tri ii kb m) (sub ii (ii + kb) A1)
      (sub 0 (ii + kb) A2) (sub 0 ii A2) (sub 0 ii T) p (c - (ii + kb)) = wB tri m ii kb A1 A2 T p c := by
    intro p c hc
    unfold wL wB
    refine sum_congr rfl fun p' hp' => ?_
    congr 2
    · unfold Pent.sub; rw [show ii + kb + (c - (ii + kb)) = c by omega]
    · refine Eq.trans ?_ (sum_rows2 tri .columnwise ii kb m A2 (mem_range.1 hp') (fun q x => star x * A2 q c)
        (fun q => by rw [star_zero, zero_mul]))
      refine sum_congr rfl fun q _ => ?_
      congr 1
      unfold Pent.sub
      rw [Nat.zero_add, show ii + kb + (c - (ii + kb)) = c by omega]
  refine ⟨r, hr, ?_, ?_⟩
  · intro r' c hc
    unfold put
    by_cases hcc : ii ≤ r' ∧ ii + kb ≤ c
    · rw [if_pos hcc, h1, sub_at _ hcc.1 hcc.2]
      by_cases hr' : r' < ii + kb
      · rw [if_pos (by omega), if_pos (by omega), hw _ _ hcc.2]
      · rw [if_neg (by omega), if_neg (by omega)]
    · rw [if_neg hcc, if_neg (by omega)]
  · intro q c hq hc
    unfold put
    by_cases hcc : ii + kb ≤ c
    · rw [if_pos ⟨Nat.zero_le _, hcc⟩, if_pos hcc, h2, sub_at _ (Nat.zero_le _) hcc, Nat.sub_zero]
      by_cases hq2 : q < rows2 tri ii kb m
      · rw [if_pos ⟨hq2, by omega⟩]
        congr 1
        refine sum_congr rfl fun p hp => ?_
        rw [hw _ _ hcc]
        congr 1
        exact pent_vt tri .columnwise ii kb m A2 (mem_range.1 hp) hq2
      · rw [if_neg (by omega), Finset.sum_eq_zero, sub_zero]
        intro p hp
        rw [vt_out tri _ (mem_range.1 hp) hq2 hq, zero_mul]
    · rw [if_neg (by omega), if_neg hcc]

/-- Only one block: `plasma_core_ztsmqr` with `k = ib`. -/
theorem ztsmqr_one {m1 n m2 ib ldw : Nat} (hm1 : 0 < m1) (hn : 0 < n) (hm2 : 0 < m2) (hib : 0 < ib) (V T : Tl 𝕜) (s : St 𝕜) :
    ztsmqr .left .conjTrans m1 n m2 n ib ib ldw V T s =
      zparfb .left .conjTrans .columnwise m1 n m2 n ib 0 ldw s.1 s.2.1 V T s.2.2 := by
  have e : ∀ A : Tl 𝕜, sub 0 0 A = A := fun A => by funext i j; unfold Pent.sub; rw [Nat.zero_add, Nat.zero_add]
  have e' : ∀ A B : Tl 𝕜, put 0 0 A B = B := fun A B => by
    funext i j; unfold put; rw [if_pos ⟨Nat.zero_le _, Nat.zero_le _⟩, Nat.sub_zero, Nat.sub_zero]
  unfold ztsmqr
  rw [if_neg (by omega)]
  have hc : ceilDiv ib ib = 1 := by
    unfold ceilDiv
    rw [show ib + ib - 1 = (ib - 1) + ib by omega, Nat.add_div_right _ hib, Nat.div_eq_of_lt (by omega)]
  rw [show (decide ((Side.left = .left ∧ Trans.conjTrans ≠ .noTrans) ∨ (Side.left = .right ∧ Trans.conjTrans = .noTrans))) = true
    by decide, blocks_eq hib hib, if_pos rfl, hc]
  simp only [List.range_one, List.map_cons, List.map_nil, Nat.zero_mul, iter, if_true, Nat.sub_zero, min_self, e, e']
  cases h : zparfb Side.left Trans.conjTrans Storev.columnwise m1 n m2 n ib 0 ldw s.1 s.2.1 V T s.2.2 <;> simp

/-- The new column of `T`. -/
theorem colT_at (ii i : Nat) (T : Tl 𝕜) (y : Nat → 𝕜) (tau : 𝕜) (hy : ∀ l, ¬ l < i → y l = T l (ii + i)) (l c : Nat) :
    setAt (setCol T (ii + i) (trmvF .upper .noTrans i (sub 0 ii T) y)) i (ii + i) tau l c =
      if c = ii + i ∧ l = i then tau else if c = ii + i ∧ l < i then
        ∑ p ∈ range i, (if l ≤ p then T l (ii + p) * y p else 0) else T l c := by
  unfold setAt setCol
  by_cases hc : c = ii + i
  · by_cases hl : l = i
    · rw [if_pos ⟨hl, hc⟩, if_pos ⟨hc, hl⟩]
    · rw [if_neg (by tauto), if_pos hc, if_neg (by tauto)]
      by_cases hli : l < i
      · rw [if_pos ⟨hc, hli⟩, trmv_at _ _ _ _ hli]
      · rw [if_neg (by tauto)]
        unfold trmvF
        rw [if_neg hli, hy l hli, hc]
  · rw [if_neg (by tauto), if_neg hc, if_neg (by tauto), if_neg (by tauto)]

/-! ### What is left alone -/

/-- Nothing is changed outside the triangle of `A1`, the part of `A2` in use and the blocks of `T`. -/
structure Fr (tri : Bool) (n m ib : Nat) (s0 s : FSt 𝕜) : Prop where
  a1 : ∀ r c, c < n → c < r → s.A1 r c = s0.A1 r c
  a2 : ∀ q c, q < m → c < n → rowsV tri m c ≤ q → s.A2 q c = s0.A2 q c
  t : ∀ l c, c % ib < l → s.T l c = s0.T l c

theorem Fr.refl (tri : Bool) (n m ib : Nat) (s : FSt 𝕜) : Fr tri n m ib s s := ⟨fun _ _ _ _ => rfl, fun _ _ _ _ _ => rfl, fun _ _ _ => rfl⟩

theorem Fr.trans {tri : Bool} {n m ib : Nat} {s0 s s' : FSt 𝕜} (h : Fr tri n m ib s0 s) (h' : Fr tri n m ib s s') :
    Fr tri n m ib s0 s' :=
  ⟨fun r c h1 h2 => (h'.a1 r c h1 h2).trans (h.a1 r c h1 h2), fun r c h1 h2 h3 => (h'.a2 r c h1 h2 h3).trans (h.a2 r c h1 h2 h3),
    fun r c h1 => (h'.t r c h1).trans (h.t r c h1)⟩

/-- What a pass of the loop over columns does: reflector `ii + i` is made and applied, column `ii + i` of `T` is `T y`. -/
structure ColStep (tri : Bool) (m ii i ni : Nat) (s s' : FSt 𝕜) (y : Nat → 𝕜) : Prop where
  h1 : ∀ r c, s'.A1 r c = (applyQr (rowsV tri m (ii + i)) ni (ii + i)
    (larfg (rowsV tri m (ii + i) + 1) (s.A1 (ii + i) (ii + i)) fun q => s.A2 q (ii + i)).2.2
    (setAt s.A1 (ii + i) (ii + i)
      (larfg (rowsV tri m (ii + i) + 1) (s.A1 (ii + i) (ii + i)) fun q => s.A2 q (ii + i)).1)
    (setCol s.A2 (ii + i)
      (larfg (rowsV tri m (ii + i) + 1) (s.A1 (ii + i) (ii + i)) fun q => s.A2 q (ii + i)).2.1)).1 r c
  h2 : ∀ q c, s'.A2 q c = (applyQr (rowsV tri m (ii + i)) ni (ii + i)
    (larfg (rowsV tri m (ii + i) + 1) (s.A1 (ii + i) (ii + i)) fun q => s.A2 q (ii + i)).2.2
    (setAt s.A1 (ii + i) (ii + i)
      (larfg (rowsV tri m (ii + i) + 1) (s.A1 (ii + i) (ii + i)) fun q => s.A2 q (ii + i)).1)
    (setCol s.A2 (ii + i)
      (larfg (rowsV tri m (ii + i) + 1) (s.A1 (ii + i) (ii + i)) fun q => s.A2 q (ii + i)).2.1)).2 q c
  hT : ∀ l c, s'.T l c = if c = ii + i ∧ l = i then
      (larfg (rowsV tri m (ii + i) + 1) (s.A1 (ii + i) (ii + i)) fun q => s.A2 q (ii + i)).2.2
    else if c = ii + i ∧ l < i then ∑ p ∈ range i, (if l ≤ p then s.T l (ii + p) * y p else 0) else s.T l c

/-- The vector that `T` is applied to. -/
def ColY (tri : Bool) (m ii i : Nat) (s s' : FSt 𝕜) (y : Nat → 𝕜) : Prop :=
  ∀ p, p < i → y p = -(larfg (rowsV tri m (ii + i) + 1) (s.A1 (ii + i) (ii + i)) fun q => s.A2 q (ii + i)).2.2 *
    ∑ q ∈ range (rowsV tri m (ii + p)), star (s'.A2 q (ii + p)) * s'.A2 q (ii + i)

/-- The vector as it is whatever `T` holds: `plasma_core_zpemv` leaves the column alone when `tau = 0`. -/
def ColZ (tri : Bool) (m ii i : Nat) (s s' : FSt 𝕜) (y : Nat → 𝕜) : Prop :=
  ((tri = true ∧ (larfg (rowsV tri m (ii + i) + 1) (s.A1 (ii + i) (ii + i)) fun q => s.A2 q (ii + i)).2.2 = 0) →
      ∀ p, p < i → y p = s.T p (ii + i)) ∧
  (¬ (tri = true ∧ (larfg (rowsV tri m (ii + i) + 1) (s.A1 (ii + i) (ii + i)) fun q => s.A2 q (ii + i)).2.2 = 0) →
      ColY tri m ii i s s' y)

theorem ColZ.y {tri : Bool} {m ii i : Nat} {s s' : FSt 𝕜} {y : Nat → 𝕜} (h : ColZ tri m ii i s s' y)
    (hz : tri = true → 0 < i →
      (larfg (rowsV tri m (ii + i) + 1) (s.A1 (ii + i) (ii + i)) fun q => s.A2 q (ii + i)).2.2 ≠ 0 ∨
        ∀ p, p < i → s.T p (ii + i) = 0) : ColY tri m ii i s s' y := by
  by_cases ht : tri = true ∧ (larfg (rowsV tri m (ii + i) + 1) (s.A1 (ii + i) (ii + i)) fun q => s.A2 q (ii + i)).2.2 = 0
  · intro p hp
    rw [h.1 ht p hp, ht.2, neg_zero, zero_mul]
    exact (hz ht.1 (by omega)).elim (fun hh => absurd ht.2 hh) fun hh => hh p hp
  · exact h.2 ht

theorem ColStep.rel {tri : Bool} {n m ib ii i sb : Nat} (hi : i < sb) (hsb : sb ≤ ib) (hn : ii + sb ≤ n) (hii : ii % ib = 0)
    {T0 : Tl 𝕜} {s s' : FSt 𝕜} {h : HSt 𝕜} (hR : Rel tri n m ib (ii + i) T0 s h) {y : Nat → 𝕜}
    (hc : ColStep tri m ii i (sb - i - 1) s s' y) (hy : ColY tri m ii i s s' y) :
    Rel tri n m ib (ii + i + 1) T0 s' (hcol (n + m) (sup2 tri n m) ii (ii + sb) (ii + i) h) :=
  (col_rel hi hsb hn hii hR rfl (fun r c _ _ => hc.h1 r c) (fun q c _ _ => hc.h2 q c) hy hc.hT).1

theorem ColStep.fr {tri : Bool} {n m ib ii i ni : Nat} (hi : i < ib) (hii : ii % ib = 0)
    {s s' : FSt 𝕜} {y : Nat → 𝕜} (hc : ColStep tri m ii i ni s s' y) : Fr tri n m ib s s' := by
  obtain ⟨h1, h2, hT⟩ := hc
  have hmod : (ii + i) % ib = i := by
    rw [Nat.add_mod, hii, Nat.zero_add, Nat.mod_mod, Nat.mod_eq_of_lt hi]
  refine ⟨fun r c hc hr => ?_, fun q c hq hc hv => ?_, fun l c hl => ?_⟩
  · rw [h1, applyQr_1, if_neg (by omega)]
    unfold setAt
    rw [if_neg (by omega)]
  · have hv2 : q < rowsV tri m (ii + i) → ¬ ii + i ≤ c := by
      intro h hle
      unfold rowsV at h hv
      split_ifs at h hv <;> omega
    rw [h2, applyQr_2, if_neg (fun h => hv2 h.1 (by omega))]
    unfold setCol
    split_ifs with he
    · unfold larfg
      dsimp only
      rw [if_neg (fun h => hv2 (by omega) (by omega)), he]
    · rfl
  · rw [hT, if_neg, if_neg]
    · rintro ⟨rfl, h⟩; omega
    · rintro ⟨rfl, h⟩; omega

theorem blk_fr {tri : Bool} {n m ib ii kb : Nat} {s s' : FSt 𝕜} (hT : s'.T = s.T) {w : Nat → Nat → 𝕜}
    (h1 : ∀ r c, c < n → s'.A1 r c = if (ii ≤ r ∧ r < ii + kb) ∧ ii + kb ≤ c then s.A1 r c - w (r - ii) c else s.A1 r c)
    (h2 : ∀ q c, q < m → c < n → s'.A2 q c = if ii + kb ≤ c then
      s.A2 q c - ∑ p ∈ range kb, Pent.vt tri s.A2 q (ii + p) * w p c else s.A2 q c) :
    Fr tri n m ib s s' := by
  refine ⟨fun r c hc hr => ?_, fun q c hq hc hv => ?_, fun l c hl => by rw [hT]⟩
  · rw [h1 r c hc, if_neg (by omega)]
  · rw [h2 q c hq hc]
    split_ifs with hle
    · rw [sum_eq_zero, sub_zero]
      intro p hp
      have := mem_range.1 hp
      have : Pent.vt tri s.A2 q (ii + p) = 0 := by
        unfold Pent.vt
        cases tri
        · exact absurd hv (by simp [rowsV]; omega)
        · exact if_pos ⟨rfl, by simp [rowsV] at hv; omega⟩
      rw [this, zero_mul]
    · rfl

/-! ### Columns of the QR kernels -/

theorem tsqrtCol_step (m n ii i sb : Nat) (hsb' : sb = min (n - ii) ib) (hi : i < sb) (hsb : sb ≤ ib) (s : FSt 𝕜) :
    ∃ y, ColStep false m ii i (sb - i - 1) s (tsqrtCol m n ii sb i s) y ∧ ColZ false m ii i s (tsqrtCol m n ii sb i s) y := by
  have ea : ∀ (tau : 𝕜) (A1 A2 : Tl 𝕜), ((if ii + i + 1 < n then applyQr m (sb - i - 1) (ii + i) tau A1 A2 else (A1, A2)) : Tl 𝕜 × Tl 𝕜) =
      applyQr m (sb - i - 1) (ii + i) tau A1 A2 := by
    intro tau A1 A2
    split_ifs with hc
    · rfl
    · refine Prod.ext (funext fun r => funext fun c => ?_) (funext fun q => funext fun c => ?_)
      · rw [applyQr_1, if_neg (by omega)]
      · rw [applyQr_2, if_neg (by omega)]
  refine ⟨fun p =>
    gemvF .conjTrans m i (-(larfg (m + 1) (s.A1 (ii + i) (ii + i)) fun q => s.A2 q (ii + i)).2.2)
      (sub 0 ii (tsqrtCol m n ii sb i s).A2) (fun q => (tsqrtCol m n ii sb i s).A2 q (ii + i)) 0 (fun p => s.T p (ii + i)) p,
    ⟨?_, ?_, ?_⟩, ⟨fun h => absurd h.1 (by decide), fun _ => ?_⟩⟩
  · intro r c
    unfold tsqrtCol
    dsimp only
    rw [ea]
    rfl
  · intro q c
    unfold tsqrtCol
    dsimp only
    rw [ea]
    rfl
  · intro l c
    exact colT_at ii i s.T _ _ (fun l hl => by rw [gemvF_c, if_neg hl]) l c
  · intro p hp
    dsimp only
    rw [gemvF_c, if_pos hp, zero_mul, add_zero]
    unfold Pent.sub
    simp only [Nat.zero_add]
    rfl

/-- The pentagon passed to `plasma_core_zpemv` is the stack of reflectors. -/
theorem sum_pemv (st : Storev) {m ii i p : Nat} (hp : p < i) (A : Tl 𝕜) (x : Nat → 𝕜) :
    ∑ q ∈ range (min (ii + i) m), star (pent st (min (ii + i) m) (min i (max 0 (m - ii))) (blkV st ii A) q p) * x q =
      ∑ q ∈ range (rowsV true m (ii + p)), star (vc st A q (ii + p)) * x q := by
  have hr : rowsV true m (ii + p) = min (ii + p + 1) m := rfl
  have hle : min (ii + p + 1) m ≤ min (ii + i) m := by omega
  rw [hr, show range (min (ii + i) m) = range (min (ii + p + 1) m + (min (ii + i) m - min (ii + p + 1) m)) by congr 1; omega,
    Finset.sum_range_add, Finset.sum_eq_zero (s := range (min (ii + i) m - _)), add_zero]
  · refine sum_congr rfl fun q hq => ?_
    have := mem_range.1 hq
    unfold pent
    rw [if_neg (by omega), vc_blkV]
  · intro q hq
    have := mem_range.1 hq
    unfold pent
    rw [if_pos (by omega), star_zero, zero_mul]

theorem ttqrtCol_step {m : Nat} (hm : 0 < m) (ii i sb : Nat) (hi : i < sb) (s : FSt 𝕜) :
    ∃ y, ColStep true m ii i (sb - i - 1) s (ttqrtCol m ii sb i s) y ∧
      ColZ true m ii i s (ttqrtCol m ii sb i s) y := by
  classical
  have ea : ∀ (tau : 𝕜) (mi : Nat) (A1 A2 : Tl 𝕜),
      ((if 0 < sb - i - 1 then applyQr mi (sb - i - 1) (ii + i) tau A1 A2 else (A1, A2)) : Tl 𝕜 × Tl 𝕜) =
      applyQr mi (sb - i - 1) (ii + i) tau A1 A2 := by
    intro tau mi A1 A2
    split_ifs with hc
    · rfl
    · refine Prod.ext (funext fun r => funext fun c => ?_) (funext fun q => funext fun c => ?_)
      · rw [applyQr_1, if_neg (by omega)]
      · rw [applyQr_2, if_neg (by omega)]
  set tau := (larfg (rowsV true m (ii + i) + 1) (s.A1 (ii + i) (ii + i)) fun q => s.A2 q (ii + i)).2.2 with htau
  set y : Nat → 𝕜 := fun p => if 0 < i then zpemv .conjTrans .columnwise (min (ii + i) m) i (min i (max 0 (m - ii))) (-tau)
    (sub 0 ii (ttqrtCol m ii sb i s).A2) (fun q => (ttqrtCol m ii sb i s).A2 q (ii + i)) 0 (fun p => s.T p (ii + i)) (fun _ => 0) p
    else s.T p (ii + i) with hydef
  have h1 : ∀ r c, (ttqrtCol m ii sb i s).A1 r c = (applyQr (rowsV true m (ii + i)) (sb - i - 1) (ii + i) tau
      (setAt s.A1 (ii + i) (ii + i)
        (larfg (rowsV true m (ii + i) + 1) (s.A1 (ii + i) (ii + i)) fun q => s.A2 q (ii + i)).1)
      (setCol s.A2 (ii + i)
        (larfg (rowsV true m (ii + i) + 1) (s.A1 (ii + i) (ii + i)) fun q => s.A2 q (ii + i)).2.1)).1 r c := by
    intro r c
    unfold ttqrtCol
    dsimp only
    rw [ea]
    rfl
  refine ⟨y, ⟨h1, ?_, ?_⟩, ?_⟩
  · intro q c
    unfold ttqrtCol
    dsimp only
    rw [ea]
    rfl
  · intro l c
    by_cases hi0 : 0 < i
    · have e : y = zpemv .conjTrans .columnwise (min (ii + i) m) i (min i (max 0 (m - ii))) (-tau)
          (sub 0 ii (ttqrtCol m ii sb i s).A2) (fun q => (ttqrtCol m ii sb i s).A2 q (ii + i)) 0 (fun p => s.T p (ii + i))
          (fun _ => 0) := by
        funext p
        rw [hydef]
        dsimp only
        rw [if_pos hi0]
      have := colT_at ii i s.T y tau (fun l hl => ?_) l c
      · rw [← this, e]
        conv_lhs => unfold ttqrtCol
        dsimp only
        rw [if_pos hi0]
        rfl
      · rw [e, zpemv_out _ _ _ (by omega) _ _ _ _ _ _ hl]
    · conv_lhs => unfold ttqrtCol
      dsimp only
      rw [if_neg hi0]
      unfold setAt
      rw [if_neg (show ¬ (c = ii + i ∧ l < i) by omega)]
      refine if_congr and_comm ?_ rfl
      rfl
  · refine ⟨fun ht p hp => ?_, fun ht p hp => ?_⟩
    · have ht : tau = 0 := ht.2
      rw [hydef]
      dsimp only
      rw [if_pos (by omega), ht, neg_zero, zpemv_zero]
    · have ht : ¬ tau = 0 := fun h => ht ⟨rfl, h⟩
      rw [hydef]
      dsimp only
      rw [if_pos (by omega), zpemv_col rfl (by omega) (by omega) (by omega) (fun hh => ht (neg_eq_zero.1 hh.1)) _ _ _ _ hp, zero_mul, add_zero]
      congr 1
      exact sum_pemv .columnwise hp _ _

theorem tau_rel {tri : Bool} {n m ib j : Nat} (hj : j < n) {T0 : Tl 𝕜} {s : FSt 𝕜} {h : HSt 𝕜} (hR : Rel tri n m ib j T0 s h) :
    (larfg (rowsV tri m j + 1) (s.A1 j j) fun q => s.A2 q j).2.2 =
      ltau (h.X j j) (xn2 (n + m) (sup2 tri n m) j h.X) := by
  unfold larfg
  dsimp only
  rw [xn2_stack hj, Nat.add_sub_cancel, hR.a1 _ _ le_rfl hj]
  congr 1
  exact sum_congr rfl fun q hq => by rw [hR.a2 q _ hj (mem_range.1 hq)]

/-! ### All columns -/

theorem iter_blocks {σ : Type v} {f : Nat → σ → Option σ} {P : Nat → σ → Prop} {ib : Nat} :
    ∀ (N : Nat) (_ : ∀ b s, b < N → P b s → ∃ s', f (b * ib) s = some s' ∧ P (b + 1) s') (s : σ), P 0 s →
      ∃ s', iter f ((List.range N).map (· * ib)) s = some s' ∧ P N s' := by
  have app : ∀ (l : List Nat) (x : Nat) (s : σ), iter f (l ++ [x]) s = (iter f l s).bind (f x) := by
    intro l
    induction l with
    | nil =>
      intro x s
      show (f x s).bind (iter f []) = f x s
      cases f x s <;> rfl
    | cons a l ih =>
      intro x s
      show (f a s).bind (iter f (l ++ [x])) = ((f a s).bind (iter f l)).bind (f x)
      cases h : f a s with
      | none => rfl
      | some t => exact ih x t
  intro N
  induction N with
  | zero => exact fun _ s hs => ⟨s, rfl, hs⟩
  | succ N ih =>
    intro h s hs
    obtain ⟨s1, e1, h1⟩ := ih (fun b s hb => h b s (by omega)) s hs
    obtain ⟨s2, e2, h2⟩ := h N s1 (by omega) h1
    refine ⟨s2, ?_, h2⟩
    rw [List.range_succ, List.map_append]
    show iter f (List.map (· * ib) (List.range N) ++ [N * ib]) s = _
    rw [app, e1]
    exact e2

/-- The first `b` blocks. -/
noncomputable def hpre (d n ib : Nat) (sup : Sup) (b : Nat) (h : HSt 𝕜) : HSt 𝕜 :=
  (List.range b).foldl (fun s b => hblk d n n ib sup b s) h

theorem hpre_succ (d n ib : Nat) (sup : Sup) (b : Nat) (h : HSt 𝕜) :
    hpre d n ib sup (b + 1) h = hblk d n n ib sup b (hpre d n ib sup b h) := by
  unfold hpre
  rw [List.range_succ, List.foldl_append]
  rfl

theorem blk_lt {n ib b : Nat} (hb : b < ceilDiv n ib) : b * ib < n := by
  rcases Nat.eq_zero_or_pos ib with h0 | h0
  · subst h0; simp [ceilDiv] at hb
  · exact (lt_ceilDiv h0).1 hb

/-- The contents of the stack at the start. -/
def x2 (tri : Bool) (m n : Nat) (A1 A2 : Tl 𝕜) : Tl 𝕜 := if tri then ttX m n A1 A2 else tsX m n A1 A2

theorem rel_init (tri : Bool) (n m ib : Nat) (A1 A2 T0 : Tl 𝕜) (T1 : Tl 𝕜) :
    Rel tri n m ib 0 T0 ⟨A1, A2, T0⟩ ⟨x2 tri m n A1 A2, T1⟩ where
  a1 r c h1 h2 := by
    cases tri
    · exact ((if_pos (by omega)).trans (if_pos ⟨h1, h2⟩)).symm
    · exact ((if_pos (by omega)).trans (if_pos ⟨h1, h2⟩)).symm
  a2 q c h1 h2 := by
    cases tri
    · refine Eq.symm ((if_neg (by omega)).trans ((if_pos ?_).trans ?_))
      · exact ⟨by unfold rowsV at h2; simp at h2; omega, h1⟩
      · rw [Nat.add_sub_cancel_left]
    · refine Eq.symm ((if_neg (by omega)).trans ((if_pos ?_).trans ?_))
      · unfold rowsV at h2; simp at h2; omega
      · rw [Nat.add_sub_cancel_left]
  t c h := absurd h (by omega)
  keep _ _ _ := rfl

/-- The update of the columns behind a block. -/
structure BlkStep (tri : Bool) (n m ii kb : Nat) (s s' : FSt 𝕜) : Prop where
  hT : s'.T = s.T
  h1 : ∀ r c, c < n → s'.A1 r c = if (ii ≤ r ∧ r < ii + kb) ∧ ii + kb ≤ c then
    s.A1 r c - wB tri m ii kb s.A1 s.A2 s.T (r - ii) c else s.A1 r c
  h2 : ∀ q c, q < m → c < n → s'.A2 q c = if ii + kb ≤ c then
    s.A2 q c - ∑ p ∈ range kb, Pent.vt tri s.A2 q (ii + p) * wB tri m ii kb s.A1 s.A2 s.T p c else s.A2 q c

theorem hcols_T {d : Nat} {sup : Sup} {ii hi : Nat} (h : HSt 𝕜) : ∀ (i : Nat) {l c : Nat}, (c < ii ∨ ii + i ≤ c) →
    (hcols d sup ii hi i h).T l c = h.T l c
  | 0, _, _, _ => rfl
  | i + 1, l, c, hc => by
    unfold hcols
    rw [List.range_succ, List.foldl_append]
    refine (hcol_T_ne (show c ≠ ii + i by omega)).trans (hcols_T h i (by omega))

theorem hcols_T_le {d : Nat} {sup : Sup} {ii hi : Nat} (h : HSt 𝕜) {l c i : Nat} (hc : c < ii + i) :
    ∀ i', i ≤ i' → (hcols d sup ii hi i' h).T l c = (hcols d sup ii hi i h).T l c := by
  intro i' hi'
  induction i', hi' using Nat.le_induction with
  | base => rfl
  | succ i' hi' ih =>
    rw [← ih]
    conv_lhs => unfold hcols
    rw [List.range_succ, List.foldl_append]
    exact hcol_T_ne (show c ≠ ii + i' by omega)

theorem hpre_T_le {d n ib : Nat} {sup : Sup} (h : HSt 𝕜) {l c b : Nat} (hc : c < b * ib) :
    ∀ b', b ≤ b' → (hpre d n ib sup b' h).T l c = (hpre d n ib sup b h).T l c := by
  intro b' hb'
  induction b', hb' using Nat.le_induction with
  | base => rfl
  | succ b' hb' ih =>
    rw [← ih, hpre_succ]
    have := Nat.mul_le_mul_right ib hb'
    exact hcols_T _ _ (Or.inl (by omega))

/-- The scalar factors end up on the diagonals of the blocks of `T`. -/
theorem hqr_tau {d n ib : Nat} {sup : Sup} (h0 : HSt 𝕜) {b i : Nat} (hb : b < ceilDiv n ib) (hi : i < tdim n ib b) :
    (hqr d n n ib sup h0).T i (b * ib + i) =
      ltau ((hcols d sup (b * ib) (b * ib + tdim n ib b) i (hpre d n ib sup b h0)).X (b * ib + i) (b * ib + i))
        (xn2 d sup (b * ib + i) (hcols d sup (b * ib) (b * ib + tdim n ib b) i (hpre d n ib sup b h0)).X) := by
  have htd : tdim n ib b ≤ ib := by unfold tdim; omega
  have h1 := Nat.succ_mul b ib
  show (hpre d n ib sup (ceilDiv n ib) h0).T _ _ = _
  rw [hpre_T_le (b := b + 1) h0 (by simp only [Nat.succ_eq_add_one] at h1; omega) _ hb, hpre_succ]
  show (hcols d sup (b * ib) (b * ib + tdim n ib b) (tdim n ib b) _).T _ _ = _
  rw [hcols_T_le (i := i + 1) _ (by omega) _ hi]
  conv_lhs => unfold hcols
  rw [List.range_succ, List.foldl_append]
  have := hcol_T_diag (d := d) (sup := sup) (ii := b * ib) (hi := b * ib + tdim n ib b) (j := b * ib + i)
    (s := hcols d sup (b * ib) (b * ib + tdim n ib b) i (hpre d n ib sup b h0))
  rw [Nat.add_sub_cancel_left] at this
  exact this

/-- The scheme of the four kernels: a loop over columns, then the update of the columns behind the block. -/
structure Scheme (tri : Bool) (n m ib : Nat) (g : FSt 𝕜 → FSt 𝕜) (col : Nat → Nat → Nat → FSt 𝕜 → FSt 𝕜)
    (F : Nat → FSt 𝕜 → Option (FSt 𝕜)) : Prop where
  hcol : ∀ ii i sb s, sb = min (n - ii) ib → i < sb → ∃ y, ColStep tri m ii i (sb - i - 1) (g s) (g (col ii sb i s)) y ∧
    ColZ tri m ii i (g s) (g (col ii sb i s)) y
  hF : ∀ b s, b * ib < n → ∃ s', F (b * ib) s = some s' ∧ BlkStep tri n m (b * ib) (tdim n ib b)
    (g ((List.range (tdim n ib b)).foldl (fun s i => col (b * ib) (tdim n ib b) i s) s)) (g s')

/-- A kernel of this form computes the reference factorization. -/
theorem assemble {tri : Bool} {n m ib : Nat} (hib : 0 < ib) {g : FSt 𝕜 → FSt 𝕜} {col : Nat → Nat → Nat → FSt 𝕜 → FSt 𝕜}
    {F : Nat → FSt 𝕜 → Option (FSt 𝕜)} (hS : Scheme tri n m ib g col F) (s0 : FSt 𝕜) (T1 : Tl 𝕜) :
    ∃ s, iter F ((List.range (ceilDiv n ib)).map (· * ib)) s0 = some s ∧ Fr tri n m ib (g s0) (g s) ∧
      ((tri = true → ∀ j, j < n → 0 < j % ib →
        (hqr (n + m) n n ib (sup2 tri n m) ⟨x2 tri m n (g s0).A1 (g s0).A2, T1⟩).T (j % ib) j ≠ 0 ∨
        ∀ l, l < j % ib → (g s0).T l j = 0) →
      Rel tri n m ib n (g s0).T (g s) (hqr (n + m) n n ib (sup2 tri n m) ⟨x2 tri m n (g s0).A1 (g s0).A2, T1⟩)) := by
  set h0 : HSt 𝕜 := ⟨x2 tri m n (g s0).A1 (g s0).A2, T1⟩
  set Z : Prop := tri = true → ∀ j, j < n → 0 < j % ib → (hqr (n + m) n n ib (sup2 tri n m) h0).T (j % ib) j ≠ 0 ∨
        ∀ l, l < j % ib → (g s0).T l j = 0 with hZ
  refine (iter_blocks (ib := ib) (f := F) (P := fun b s => Fr tri n m ib (g s0) (g s) ∧ (Z →
      Rel tri n m ib (min (b * ib) n) (g s0).T (g s) (hpre (n + m) n ib (sup2 tri n m) b h0))) (ceilDiv n ib) ?_ s0 ?_).imp ?_
  · rintro b s hb ⟨hFr, hR⟩
    have hbn := blk_lt hb
    have htd : tdim n ib b = min (n - b * ib) ib := by unfold tdim; omega
    have hmod : b * ib % ib = 0 := Nat.mul_mod_left _ _
    rw [Nat.min_eq_left (le_of_lt hbn)] at hR
    have hb1 : min ((b + 1) * ib) n = b * ib + tdim n ib b := by
      unfold tdim; rw [Nat.succ_mul]; omega
    have htl : tdim n ib b ≤ ib ∧ b * ib + tdim n ib b ≤ n ∧ 0 < tdim n ib b := by unfold tdim; omega
    have key : ∀ i, i ≤ tdim n ib b →
        Fr tri n m ib (g s0) (g ((List.range i).foldl (fun s i => col (b * ib) (tdim n ib b) i s) s)) ∧
        (Z → Rel tri n m ib (b * ib + i) (g s0).T (g ((List.range i).foldl (fun s i => col (b * ib) (tdim n ib b) i s) s))
          (hcols (n + m) (sup2 tri n m) (b * ib) (b * ib + tdim n ib b) i (hpre (n + m) n ib (sup2 tri n m) b h0))) := by
      intro i
      induction i with
      | zero => exact fun _ => ⟨hFr, hR⟩
      | succ i ih =>
        intro hi
        obtain ⟨f1, f2⟩ := ih (by omega)
        obtain ⟨y, c1, c2⟩ := hS.hcol (b * ib) i (tdim n ib b)
          ((List.range i).foldl (fun s i => col (b * ib) (tdim n ib b) i s) s) htd (by omega)
        rw [List.range_succ, List.foldl_append]
        refine ⟨f1.trans (c1.fr (by omega) hmod), fun hz => ?_⟩
        have f2 := f2 hz
        conv => unfold hcols
        rw [List.range_succ, List.foldl_append]
        refine c1.rel (by omega) htl.1 htl.2.1 hmod f2 (c2.y fun ht hi0 => ?_)
        have hm2 : (b * ib + i) % ib = i := by rw [Nat.add_mod, hmod, Nat.zero_add, Nat.mod_mod, Nat.mod_eq_of_lt (by omega)]
        have := hz ht (b * ib + i) (by omega) (by omega)
        rw [hm2] at this
        rw [tau_rel (by omega) f2, ← hqr_tau h0 hb (by omega)]
        refine this.imp id fun h p hp => ?_
        rw [f2.keep _ le_rfl]
        exact h p hp
    obtain ⟨k1, k2⟩ := key _ le_rfl
    obtain ⟨s', e, hs'⟩ := hS.hF b s hbn
    refine ⟨s', e, k1.trans (blk_fr hs'.hT hs'.h1 hs'.h2), fun hz => ?_⟩
    rw [hpre_succ, hb1]
    exact blk_rel hbn (k2 hz) hs'.hT (fun r c _ hc => hs'.h1 r c hc) fun q c hc hq => hs'.h2 q c (lt_of_lt_of_le hq (rowsV_le ..)) hc
  · refine ⟨Fr.refl .., fun _ => ?_⟩
    have := rel_init tri n m ib (g s0).A1 (g s0).A2 (g s0).T T1
    simpa [hpre] using this
  · rintro s ⟨e, hf, hs⟩
    have : min (ceilDiv n ib * ib) n = n := by
      have : ¬ ceilDiv n ib * ib < n := fun h => lt_irrefl _ ((lt_ceilDiv hib).2 h)
      omega
    rw [this] at hs
    exact ⟨e, hf, hs⟩

theorem tsqrt_scheme {m n ib : Nat} (hm : 0 < m) (hn : 0 < n) (hib : 0 < ib) (W : Tl 𝕜) :
    ∃ F, (∀ A1 A2 T, ztsqrt m n ib W A1 A2 T = iter F ((List.range (ceilDiv n ib)).map (· * ib)) ⟨A1, A2, T⟩) ∧
      Scheme false n m ib id (fun ii sb i s => tsqrtCol m n ii sb i s) F := by
  apply Exists.intro
  apply And.intro
  · intro A1 A2 T
    unfold ztsqrt
    rw [if_neg (by omega), blocks_eq hn hib, if_pos rfl]
  refine ⟨?_, ?_⟩
  · intro ii i sb s hsb hi
    exact tsqrtCol_step m n ii i sb hsb hi (by omega) s
  · intro b s hbn
    have htd : min (n - b * ib) ib = tdim n ib b := by unfold tdim; omega
    have htl : tdim n ib b ≤ ib ∧ b * ib + tdim n ib b ≤ n ∧ 0 < tdim n ib b := by unfold tdim; omega
    dsimp only
    rw [htd]
    set s1 := (List.range (tdim n ib b)).foldl (fun s i => tsqrtCol m n (b * ib) (tdim n ib b) i s) s
    by_cases hlt : b * ib + tdim n ib b < n
    · rw [if_pos hlt]
      have hkb : tdim n ib b = ib := by unfold tdim at *; omega
      obtain ⟨r, hr, g1, g2⟩ := parfb_left_blk false (m1 := tdim n ib b) (ldw := tdim n ib b) hm htl.2.2 hlt htl.2.2 le_rfl
        s1.A1 s1.A2 s1.T W
      have e2 := ztsmqr_one (m1 := tdim n ib b) (n := n - (b * ib + tdim n ib b)) (m2 := m) (ib := ib) (ldw := tdim n ib b)
        htl.2.2 (by omega) hm hib (sub 0 (b * ib) s1.A2) (sub 0 (b * ib) s1.T)
        (sub (b * ib) (b * ib + tdim n ib b) s1.A1, sub 0 (b * ib + tdim n ib b) s1.A2, W)
      rw [e2]
      have e3 : zparfb .left .conjTrans .columnwise (tdim n ib b) (n - (b * ib + tdim n ib b)) m (n - (b * ib + tdim n ib b)) ib 0
          (tdim n ib b) (sub (b * ib) (b * ib + tdim n ib b) s1.A1) (sub 0 (b * ib + tdim n ib b) s1.A2) (sub 0 (b * ib) s1.A2)
          (sub 0 (b * ib) s1.T) W = some r := by
        rw [← hr]
        unfold rows2 ltri
        simp only [Bool.false_eq_true, if_false, hkb]
      dsimp only
      rw [e3]
      exact ⟨_, rfl, rfl, g1, g2⟩
    · rw [if_neg hlt]
      refine ⟨_, rfl, rfl, (fun r c hc => ?_), fun q c hq hc => ?_⟩
      · rw [if_neg (by omega)]
      · rw [if_neg (by omega)]

theorem tsqrt_rel {m n ib : Nat} (hm : 0 < m) (hn : 0 < n) (hib : 0 < ib) (W A1 A2 T T1 : Tl 𝕜) :
    ∃ s, ztsqrt m n ib W A1 A2 T = some s ∧ Fr false n m ib ⟨A1, A2, T⟩ s ∧
      Rel false n m ib n T s (hqr (n + m) n n ib (sup2 false n m) ⟨x2 false m n A1 A2, T1⟩) := by
  obtain ⟨F, hF, hS⟩ := tsqrt_scheme hm hn hib W
  rw [hF]
  exact (assemble hib hS ⟨A1, A2, T⟩ T1).imp fun s hs => ⟨hs.1, hs.2.1, hs.2.2 (fun h => absurd h (by decide))⟩

theorem ttqrt_scheme {m n ib : Nat} (hm : 0 < m) (hn : 0 < n) (hib : 0 < ib) (W : Tl 𝕜) :
    ∃ F, (∀ A1 A2 T, zttqrt m n ib W A1 A2 T = iter F ((List.range (ceilDiv n ib)).map (· * ib)) ⟨A1, A2, T⟩) ∧
      Scheme true n m ib id (fun ii sb i s => ttqrtCol m ii sb i s) F := by
  apply Exists.intro
  apply And.intro
  · intro A1 A2 T
    unfold zttqrt
    rw [if_neg (by omega), blocks_eq hn hib, if_pos rfl]
  refine ⟨?_, ?_⟩
  · intro ii i sb s hsb hi
    exact ttqrtCol_step hm ii i sb hi s
  · intro b s hbn
    have htd : min (n - b * ib) ib = tdim n ib b := by unfold tdim; omega
    have htl : tdim n ib b ≤ ib ∧ b * ib + tdim n ib b ≤ n ∧ 0 < tdim n ib b := by unfold tdim; omega
    dsimp only
    rw [htd]
    set s1 := (List.range (tdim n ib b)).foldl (fun s i => ttqrtCol m (b * ib) (tdim n ib b) i s) s
    by_cases hlt : b * ib + tdim n ib b < n
    · rw [if_pos hlt]
      obtain ⟨r, hr, g1, g2⟩ := parfb_left_blk true (m1 := ib) (ldw := tdim n ib b) hm htl.2.2 hlt hib le_rfl
        s1.A1 s1.A2 s1.T W
      have e3 : zparfb .left .conjTrans .columnwise ib (n - (b * ib + tdim n ib b)) (min (b * ib + tdim n ib b) m)
          (n - (b * ib + tdim n ib b)) (tdim n ib b) (min (tdim n ib b) (max 0 (min (b * ib + tdim n ib b) m - b * ib)))
          (tdim n ib b) (sub (b * ib) (b * ib + tdim n ib b) s1.A1) (sub 0 (b * ib + tdim n ib b) s1.A2) (sub 0 (b * ib) s1.A2)
          (sub 0 (b * ib) s1.T) W = some r := by
        rw [← hr]
        unfold rows2 ltri
        simp only [if_true]
        congr 1
        omega
      rw [e3]
      exact ⟨_, rfl, rfl, g1, g2⟩
    · rw [if_neg hlt]
      refine ⟨_, rfl, rfl, (fun r c hc => ?_), fun q c hq hc => ?_⟩
      · rw [if_neg (by omega)]
      · rw [if_neg (by omega)]

theorem ttqrt_rel {m n ib : Nat} (hm : 0 < m) (hn : 0 < n) (hib : 0 < ib) (W A1 A2 T T1 : Tl 𝕜) :
    ∃ s, zttqrt m n ib W A1 A2 T = some s ∧ Fr true n m ib ⟨A1, A2, T⟩ s ∧
      ((∀ j, j < n → 0 < j % ib → (hqr (n + m) n n ib (sup2 true n m) ⟨x2 true m n A1 A2, T1⟩).T (j % ib) j ≠ 0 ∨
        ∀ l, l < j % ib → T l j = 0) →
      Rel true n m ib n T s (hqr (n + m) n n ib (sup2 true n m) ⟨x2 true m n A1 A2, T1⟩)) := by
  obtain ⟨F, hF, hS⟩ := ttqrt_scheme hm hn hib W
  rw [hF]
  exact (assemble hib hS ⟨A1, A2, T⟩ T1).imp fun s hs => ⟨hs.1, hs.2.1, fun hz => hs.2.2 fun _ => hz⟩

/-! ### What is read -/

/-- Two states that agree on the parts in use. -/
structure Agr (tri : Bool) (n m ib : Nat) (s s' : FSt 𝕜) : Prop where
  a1 : ∀ r c, r ≤ c → c < n → s.A1 r c = s'.A1 r c
  a2 : ∀ q c, c < n → q < rowsV tri m c → s.A2 q c = s'.A2 q c
  t : ∀ l c, c < n → l ≤ c % ib → s.T l c = s'.T l c

theorem ColStep.agr {tri : Bool} {n m ib ii i sb : Nat} (hi : i < sb) (hsb : sb ≤ ib) (hn : ii + sb ≤ n) (hii : ii % ib = 0)
    {s s' t t' : FSt 𝕜} {y z : Nat → 𝕜} (h : Agr tri n m ib s t)
    (hc : ColStep tri m ii i (sb - i - 1) s s' y) (hy : ColZ tri m ii i s s' y)
    (hd : ColStep tri m ii i (sb - i - 1) t t' z) (hz : ColZ tri m ii i t t' z) : Agr tri n m ib s' t' := by
  set j := ii + i with hj
  have hjn : j < n := by omega
  have ex : (∑ q ∈ range (rowsV tri m j + 1 - 1), ‖s.A2 q j‖ ^ 2) = ∑ q ∈ range (rowsV tri m j + 1 - 1), ‖t.A2 q j‖ ^ 2 :=
    sum_congr rfl fun q hq => by rw [h.a2 q j hjn (by have := mem_range.1 hq; omega)]
  have ed := h.a1 j j le_rfl hjn
  have eb : (larfg (rowsV tri m j + 1) (s.A1 j j) fun q => s.A2 q j).1 = (larfg (rowsV tri m j + 1) (t.A1 j j) fun q => t.A2 q j).1 := by
    unfold larfg; dsimp only; rw [ex, ed]
  have et : (larfg (rowsV tri m j + 1) (s.A1 j j) fun q => s.A2 q j).2.2 =
      (larfg (rowsV tri m j + 1) (t.A1 j j) fun q => t.A2 q j).2.2 := by
    unfold larfg; dsimp only; rw [ex, ed]
  have ev : ∀ q, q < rowsV tri m j → (larfg (rowsV tri m j + 1) (s.A1 j j) fun q => s.A2 q j).2.1 q =
      (larfg (rowsV tri m j + 1) (t.A1 j j) fun q => t.A2 q j).2.1 q := by
    intro q hq
    unfold larfg
    dsimp only
    rw [if_pos (by omega), if_pos (by omega), ex, ed, h.a2 q j hjn hq]
  have mono : ∀ c, j ≤ c → rowsV tri m j ≤ rowsV tri m c := fun c hc => by unfold rowsV; split <;> omega
  obtain ⟨c1, c2, cT⟩ := hc
  obtain ⟨d1, d2, dT⟩ := hd
  rw [← hj] at c1 c2 cT d1 d2 dT
  unfold ColZ ColY at hy hz
  rw [← hj] at hy hz
  rw [← et, ← eb] at d1 d2
  rw [← et] at dT hz
  set tau := (larfg (rowsV tri m j + 1) (s.A1 j j) fun q => s.A2 q j).2.2
  set bet := (larfg (rowsV tri m j + 1) (s.A1 j j) fun q => s.A2 q j).1
  set v := (larfg (rowsV tri m j + 1) (s.A1 j j) fun q => s.A2 q j).2.1 with hv
  set w := (larfg (rowsV tri m j + 1) (t.A1 j j) fun q => t.A2 q j).2.1 with hw
  have p1 : ∀ r c, r ≤ c → c < n → setAt s.A1 j j bet r c = setAt t.A1 j j bet r c := by
    intro r c hr hc
    unfold setAt
    rw [h.a1 r c hr hc]
  have p2 : ∀ q c, c < n → q < rowsV tri m c → setCol s.A2 j v q c = setCol t.A2 j w q c := by
    intro q c hc hq
    unfold setCol
    split_ifs with he
    · exact ev q (he ▸ hq)
    · exact h.a2 q c hc hq
  have dot : ∀ c, j < c → c < n → setAt s.A1 j j bet j c +
      ∑ q ∈ range (rowsV tri m j), star (setCol s.A2 j v q j) * setCol s.A2 j v q c =
      setAt t.A1 j j bet j c + ∑ q ∈ range (rowsV tri m j), star (setCol t.A2 j w q j) * setCol t.A2 j w q c := by
    intro c hc hcn
    rw [p1 j c (by omega) hcn]
    congr 1
    refine sum_congr rfl fun q hq => ?_
    have hq := mem_range.1 hq
    rw [p2 q j hjn hq, p2 q c hcn (lt_of_lt_of_le hq (mono c (by omega)))]
  have q2 : ∀ q c, c < n → q < rowsV tri m c → s'.A2 q c = t'.A2 q c := by
    intro q c hc hq
    rw [c2, d2, applyQr_2, applyQr_2, p2 q c hc hq]
    by_cases hh : q < rowsV tri m j ∧ j + 1 ≤ c ∧ c < j + 1 + (sb - i - 1)
    · rw [if_pos (by omega), if_pos (by omega), dot c (by omega) hc, p2 q j hjn hh.1]
    · rw [if_neg (by omega), if_neg (by omega)]
  refine ⟨?_, q2, ?_⟩
  · intro r c hr hc
    rw [c1, d1, applyQr_1, applyQr_1, p1 r c hr hc]
    by_cases hh : r = j ∧ j + 1 ≤ c ∧ c < j + 1 + (sb - i - 1)
    · obtain ⟨rfl, hh⟩ := hh
      rw [if_pos (by omega), if_pos (by omega), dot c (by omega) hc]
      try rw [p1 j c hr hc]
    · rw [if_neg (by omega), if_neg (by omega)]
  · intro l c hc hl
    have hmod : ∀ x, x < ib → (ii + x) % ib = x := fun x hx => by
      rw [Nat.add_mod, hii, Nat.zero_add, Nat.mod_mod, Nat.mod_eq_of_lt hx]
    rw [cT, dT, h.t l c hc hl]
    by_cases hcj : c = j ∧ l < i
    · have yz : ∀ p, p < i → y p = z p := by
        intro p hp
        by_cases ht : tri = true ∧ tau = 0
        · rw [hy.1 ht p hp, hz.1 ht p hp, h.t p j hjn (by rw [hj, hmod i (by omega)]; omega)]
        · rw [hy.2 ht p hp, hz.2 ht p hp]
          refine congrArg₂ (· * ·) rfl (sum_congr rfl fun q hq => ?_)
          have hq := mem_range.1 hq
          have hqj : q < rowsV tri m j := by
            refine lt_of_lt_of_le hq ?_
            unfold rowsV; split <;> omega
          rw [q2 q _ (by omega) hq, q2 q j hjn hqj]
      rw [if_neg (show ¬ (c = j ∧ l = i) by omega), if_neg (show ¬ (c = j ∧ l = i) by omega), if_pos hcj, if_pos hcj]
      refine sum_congr rfl fun p hp => ?_
      have hp := mem_range.1 hp
      split_ifs with hlp
      · rw [yz p hp, h.t l (ii + p) (by omega) (by rw [hmod p (by omega)]; exact hlp)]
      · rfl
    · rw [if_neg hcj, if_neg hcj]

theorem BlkStep.agr {tri : Bool} {n m ib ii kb : Nat} (hn : ii + kb ≤ n) (hkb : kb ≤ ib) (hii : ii % ib = 0)
    {s s' t t' : FSt 𝕜} (h : Agr tri n m ib s t)
    (hs : BlkStep tri n m ii kb s s') (ht : BlkStep tri n m ii kb t t') : Agr tri n m ib s' t' := by
  have hmod : ∀ x, x < ib → (ii + x) % ib = x := fun x hx => by
    rw [Nat.add_mod, hii, Nat.zero_add, Nat.mod_mod, Nat.mod_eq_of_lt hx]
  have hv : ∀ q c, q < m → c < n → Pent.vt tri s.A2 q c = Pent.vt tri t.A2 q c := by
    intro q c hq hc
    unfold Pent.vt
    split_ifs with hh
    · rfl
    · refine h.a2 q c hc ?_
      unfold rowsV
      split_ifs with ht
      · have : ¬ c < q := fun e => hh ⟨ht, e⟩
        omega
      · exact hq
  have hw : ∀ p c, p < kb → ii + kb ≤ c → c < n → wB tri m ii kb s.A1 s.A2 s.T p c = wB tri m ii kb t.A1 t.A2 t.T p c := by
    intro p c hp hc hcn
    unfold wB
    refine sum_congr rfl fun p' hp' => ?_
    have hp' := mem_range.1 hp'
    congr 1
    · simp only [opE, trE, Pent.sub, inTri, Nat.zero_add, reduceCtorEq, if_false]
      by_cases hpp : p' ≤ p
      · rw [h.t p' (ii + p) (by omega) (by rw [hmod p (by omega)]; exact hpp)]
      · rw [if_neg (by omega), if_neg hpp, if_neg (by omega), if_neg hpp]
    · rw [h.a1 (ii + p') c (by omega) hcn]
      congr 1
      refine sum_congr rfl fun q hq => ?_
      have hq := mem_range.1 hq
      by_cases hh : tri = true ∧ ii + p' < q
      · unfold Pent.vt
        rw [if_pos hh, if_pos hh, star_zero, zero_mul, zero_mul]
      · rw [hv q _ hq (by omega), h.a2 q c hcn]
        unfold rowsV
        split_ifs with ht
        · have : ¬ ii + p' < q := fun e => hh ⟨ht, e⟩
          omega
        · exact hq
  refine ⟨fun r c hr hc => ?_, fun q c hc hq => ?_, fun l c hc hl => ?_⟩
  · rw [hs.h1 r c hc, ht.h1 r c hc, h.a1 r c hr hc]
    split_ifs with hh
    · rw [hw (r - ii) c (by omega) hh.2 hc]
    · rfl
  · have hqm := lt_of_lt_of_le hq (rowsV_le ..)
    rw [hs.h2 q c hqm hc, ht.h2 q c hqm hc, h.a2 q c hc hq]
    split_ifs with hh
    · congr 1
      refine sum_congr rfl fun p hp => ?_
      have hp := mem_range.1 hp
      rw [hv q _ hqm (by omega), hw p c hp hh hc]
    · rfl
  · rw [hs.hT, ht.hT]
    exact h.t l c hc hl

/-- Two runs of a function on pairs of states. -/
theorem iter_agr {σ : Type v} {f f' : Nat → σ → Option σ} {P : σ → σ → Prop} :
    ∀ (l : List Nat) (_ : ∀ x ∈ l, ∀ s t, P s t → ∃ s' t', f x s = some s' ∧ f' x t = some t' ∧ P s' t') (s t : σ), P s t →
      ∃ s' t', iter f l s = some s' ∧ iter f' l t = some t' ∧ P s' t'
  | [], _, s, t, hp => ⟨s, t, rfl, rfl, hp⟩
  | x :: l, h, s, t, hp => by
    obtain ⟨s1, t1, e1, e2, h1⟩ := h x (List.mem_cons_self ..) s t hp
    obtain ⟨s2, t2, e3, e4, h2⟩ := iter_agr l (fun x hx => h x (List.mem_cons_of_mem _ hx)) s1 t1 h1
    refine ⟨s2, t2, ?_, ?_, h2⟩
    · show (f x s).bind (iter f l) = _
      rw [e1]; exact e3
    · show (f' x t).bind (iter f' l) = _
      rw [e2]; exact e4

/-- A kernel of this form reads only the parts in use. -/
theorem assemble_agr {tri : Bool} {n m ib : Nat} (hib : 0 < ib) {g : FSt 𝕜 → FSt 𝕜} {col : Nat → Nat → Nat → FSt 𝕜 → FSt 𝕜}
    {F F' : Nat → FSt 𝕜 → Option (FSt 𝕜)} (hS : Scheme tri n m ib g col F) (hS' : Scheme tri n m ib g col F')
    {s t : FSt 𝕜} (h : Agr tri n m ib (g s) (g t)) :
    ∃ s' t', iter F ((List.range (ceilDiv n ib)).map (· * ib)) s = some s' ∧
      iter F' ((List.range (ceilDiv n ib)).map (· * ib)) t = some t' ∧ Agr tri n m ib (g s') (g t') := by
  refine iter_agr (P := fun s t => Agr tri n m ib (g s) (g t)) _ ?_ s t h
  intro x hx s t h
  obtain ⟨b, hb, rfl⟩ := List.mem_map.1 hx
  have hbn := blk_lt (List.mem_range.1 hb)
  have htd : tdim n ib b = min (n - b * ib) ib := by unfold tdim; omega
  have hmod : b * ib % ib = 0 := Nat.mul_mod_left _ _
  have htl : tdim n ib b ≤ ib ∧ b * ib + tdim n ib b ≤ n ∧ 0 < tdim n ib b := by unfold tdim; omega
  have key : ∀ i, i ≤ tdim n ib b →
      Agr tri n m ib (g ((List.range i).foldl (fun s i => col (b * ib) (tdim n ib b) i s) s))
        (g ((List.range i).foldl (fun s i => col (b * ib) (tdim n ib b) i s) t)) := by
    intro i
    induction i with
    | zero => exact fun _ => h
    | succ i ih =>
      intro hi
      have ih := ih (by omega)
      obtain ⟨y, c1, c2⟩ := hS.hcol (b * ib) i (tdim n ib b)
        ((List.range i).foldl (fun s i => col (b * ib) (tdim n ib b) i s) s) htd (by omega)
      obtain ⟨z, d1, d2⟩ := hS.hcol (b * ib) i (tdim n ib b)
        ((List.range i).foldl (fun s i => col (b * ib) (tdim n ib b) i s) t) htd (by omega)
      rw [List.range_succ, List.foldl_append, List.foldl_append]
      exact c1.agr (by omega) htl.1 htl.2.1 hmod ih c2 d1 d2
  obtain ⟨s', e, hs'⟩ := hS.hF b s hbn
  obtain ⟨t', e', ht'⟩ := hS'.hF b t hbn
  exact ⟨s', t', e, e', hs'.agr htl.2.1 htl.1 hmod (key _ le_rfl) ht'⟩

end

end Verif.Fact

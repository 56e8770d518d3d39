/-
Properties of the kernels that make the reflectors of a pair of tiles, as the code computes them: C61.
-/
import Verif.Stale
import Verif.Props.QrThreads

namespace Verif.Props

open Verif.Layout Verif.Tile Verif.Tree Verif.Qr Verif.Fact Finset Matrix

universe v

set_option linter.unusedSectionVars false

section
variable {𝕜 : Type v} [RCLike 𝕜]

/-! ### The kernels of the QR factorization -/

/-- **C61**, `plasma_core_ztsqrt`: whatever `T` and the workspace hold before the call, no call of BLAS is rejected, the
reflectors left in `A2` and `T` make a unitary matrix, this matrix times the new triangle is the old triangle on top of
the old `A2`, and nothing below the diagonal of `A1` or of the blocks of `T` changes. -/
theorem C61_tsqrt {m n ib : Nat} (hm : 0 < m) (hn : 0 < n) (hib : 0 < ib) (W A1 A2 T : Tl 𝕜) {m1 : Nat} (hm1 : n ≤ m1) :
    ∃ s, ztsqrt m n ib W A1 A2 T = some s ∧
      wy (m1 + m) n ib (tsV m1 s.A2) s.T ∈ unitaryGroup (Fin (m1 + m)) 𝕜 ∧
      (∀ i j, i < m1 + m → j < n → lmul (wy (m1 + m) n ib (tsV m1 s.A2) s.T) (vstack m1 (triu s.A1) (fun _ _ => 0)) i j =
        vstack m1 (triu A1) A2 i j) ∧
      (∀ r c, c < n → c < r → s.A1 r c = A1 r c) ∧ (∀ l c, c % ib < l ∨ n ≤ c → s.T l c = T l c) := by
  obtain ⟨s, e, hf, hR⟩ := tsqrt_rel hm hn hib W A1 A2 T (fun _ _ => 0)
  obtain ⟨h1, h2⟩ := ts_of_rel hm hn hib hR hm1
  exact ⟨s, e, h1, h2, hf.a1, fun l c h => h.elim (hf.t l c) fun h => hR.keep c h l⟩

/-- Sizes that do not fit the inner blocking, tiles that are not zero. -/
example : ∃ s, ztsqrt 4 3 2 (fun _ _ => 5) (fun i j => (i + 2 * j + 1 : ℂ)) (fun i j => (i - j : ℂ)) (fun _ _ => 7) = some s ∧
    wy (3 + 4) 3 2 (tsV 3 s.A2) s.T ∈ unitaryGroup (Fin (3 + 4)) ℂ :=
  (C61_tsqrt (by omega) (by omega) (by omega) _ _ _ _ (m1 := 3) (by omega)).imp fun _ h => ⟨h.1, h.2.1⟩

/-- **C61**, `plasma_core_ztsqrt`: the results depend on the upper triangle of `A1` and on `A2` only; not on the workspace,
nor on what `T` holds before the call. -/
theorem C61_tsqrt_reads {m n ib : Nat} (hm : 0 < m) (hn : 0 < n) (hib : 0 < ib) (W W' T T' : Tl 𝕜) {A1 A1' A2 A2' : Tl 𝕜}
    (h1 : ∀ r c, r ≤ c → c < n → A1 r c = A1' r c) (h2 : ∀ q c, q < m → c < n → A2 q c = A2' q c) {s s' : FSt 𝕜}
    (e : ztsqrt m n ib W A1 A2 T = some s) (e' : ztsqrt m n ib W' A1' A2' T' = some s') :
    (∀ r c, r ≤ c → c < n → s.A1 r c = s'.A1 r c) ∧ (∀ q c, q < m → c < n → s.A2 q c = s'.A2 q c) ∧
    (∀ l c, c < n → l ≤ c % ib → s.T l c = s'.T l c) := by
  obtain ⟨t, f, -, hR⟩ := tsqrt_rel hm hn hib W A1 A2 T (fun _ _ => 0)
  obtain ⟨t', f', -, hR'⟩ := tsqrt_rel hm hn hib W' A1' A2' T' (fun _ _ => 0)
  rw [e] at f
  rw [e'] at f'
  cases f
  cases f'
  have ex : x2 false m n A1 A2 = x2 false m n A1' A2' := by
    unfold x2 tsX
    funext r c
    simp only [Bool.false_eq_true, if_false]
    split_ifs with h3 h4 h5
    · exact h1 r c h4.1 h4.2
    · rfl
    · exact h2 _ c h5.1 h5.2
    · rfl
  rw [← ex] at hR'
  refine ⟨fun r c h h' => (hR.a1 r c h h').trans (hR'.a1 r c h h').symm, fun q c h h' => ?_, fun l c h h' => ?_⟩
  · exact (hR.a2 q c h' h).trans (hR'.a2 q c h' h).symm
  · exact (hR.t c h l h').trans (hR'.t c h l h').symm

/-- Two calls that differ in the workspace, in `T` and below the diagonal of `A1`. -/
example : ∃ s s' : FSt ℂ, ztsqrt 4 3 2 (fun _ _ => 5) (fun i j => (i + 2 * j + 1 : ℂ)) (fun i j => (i - j : ℂ)) (fun _ _ => 7) = some s ∧
    ztsqrt 4 3 2 (fun _ _ => 6) (fun i j => if i ≤ j then (i + 2 * j + 1 : ℂ) else 9) (fun i j => (i - j : ℂ)) (fun _ _ => 8) = some s' ∧
    s.A1 0 2 = s'.A1 0 2 := by
  obtain ⟨s, e, -⟩ := C61_tsqrt (m := 4) (n := 3) (ib := 2) (by omega) (by omega) (by omega) (fun _ _ => 5)
    (fun i j => (i + 2 * j + 1 : ℂ)) (fun i j => (i - j : ℂ)) (fun _ _ => 7) (m1 := 3) (by omega)
  obtain ⟨s', e', -⟩ := C61_tsqrt (m := 4) (n := 3) (ib := 2) (by omega) (by omega) (by omega) (fun _ _ => 6)
    (fun i j => if i ≤ j then (i + 2 * j + 1 : ℂ) else 9) (fun i j => (i - j : ℂ)) (fun _ _ => 8) (m1 := 3) (by omega)
  exact ⟨s, s', e, e', (C61_tsqrt_reads (by omega) (by omega) (by omega) _ _ _ _
    (fun r c h _ => (if_pos h).symm) (fun _ _ _ _ => rfl) e e').1 0 2 (by omega) (by omega)⟩

/-- **C61**, `plasma_core_zttqrt`, part: as `C61_tsqrt`, for a triangle below the triangle, if `T` is zero before the call
or no reflector has a zero `tau` (those of the first column of a block may).

Missing: other contents of `T`; there it is false, see `C61_ttqrt_refuted`. -/
theorem C61_ttqrt_partial {m n ib : Nat} (hm : 0 < m) (hn : 0 < n) (hib : 0 < ib) (W A1 A2 T : Tl 𝕜)
    (hz : ∀ j, j < n → 0 < j % ib → (ttqrtK m n ib A1 A2).T (j % ib) j ≠ 0 ∨ ∀ l, l < j % ib → T l j = 0)
    {m1 : Nat} (hm1 : n ≤ m1) :
    ∃ s, zttqrt m n ib W A1 A2 T = some s ∧
      wy (m1 + m) n ib (ttV m1 s.A2) s.T ∈ unitaryGroup (Fin (m1 + m)) 𝕜 ∧
      (∀ i j, i < m1 + m → j < n → lmul (wy (m1 + m) n ib (ttV m1 s.A2) s.T) (vstack m1 (triu s.A1) (fun _ _ => 0)) i j =
        vstack m1 (triu A1) (triu A2) i j) := by
  obtain ⟨s, e, hf, hR⟩ := ttqrt_rel hm hn hib W A1 A2 T (fun _ _ => 0)
  obtain ⟨h1, h2⟩ := tt_of_rel hm hn hib (hR hz) hm1
  exact ⟨s, e, h1, h2⟩

/-- A `T` of zeros. -/
example : ∃ s, zttqrt 3 3 2 (fun _ _ => 5) (fun i j => (i + 2 * j + 1 : ℂ)) (fun i j => (i - j : ℂ)) (fun _ _ => 0) = some s ∧
    wy (3 + 3) 3 2 (ttV 3 s.A2) s.T ∈ unitaryGroup (Fin (3 + 3)) ℂ :=
  (C61_ttqrt_partial (by omega) (by omega) (by omega) _ _ _ _ (fun _ _ _ => Or.inr fun _ _ => rfl) (m1 := 3) (by omega)).imp
    fun _ h => ⟨h.1, h.2.1⟩

/-- **C61**, `plasma_core_zttqrt`, part: what is left alone, whatever `T` holds: `A1` and `A2` below the diagonal (where the
reflectors of the tiles themselves are kept) and `T` below the diagonals of its blocks. -/
theorem C61_ttqrt_frame {m n ib : Nat} (hm : 0 < m) (hn : 0 < n) (hib : 0 < ib) (W A1 A2 T : Tl 𝕜) :
    ∃ s, zttqrt m n ib W A1 A2 T = some s ∧ (∀ r c, c < n → c < r → s.A1 r c = A1 r c) ∧
      (∀ r c, r < m → c < n → c < r → s.A2 r c = A2 r c) ∧ (∀ l c, c % ib < l → s.T l c = T l c) := by
  obtain ⟨s, e, hf, -⟩ := ttqrt_rel hm hn hib W A1 A2 T (fun _ _ => 0)
  exact ⟨s, e, hf.a1, fun r c h h' h'' => hf.a2 r c h h' (by simp only [rowsV, if_true]; omega), hf.t⟩

/-- **C61**, `plasma_core_zttqrt`: the results depend on the upper triangles of `A1` and `A2` and on the blocks of `T` only,
not on the workspace. -/
theorem C61_ttqrt_reads {m n ib : Nat} (hm : 0 < m) (hn : 0 < n) (hib : 0 < ib) (W W' : Tl 𝕜) {A1 A1' A2 A2' T T' : Tl 𝕜}
    (h1 : ∀ r c, r ≤ c → c < n → A1 r c = A1' r c) (h2 : ∀ q c, q ≤ c → q < m → c < n → A2 q c = A2' q c)
    (h3 : ∀ l c, c < n → l ≤ c % ib → T l c = T' l c) {s s' : FSt 𝕜}
    (e : zttqrt m n ib W A1 A2 T = some s) (e' : zttqrt m n ib W' A1' A2' T' = some s') :
    (∀ r c, r ≤ c → c < n → s.A1 r c = s'.A1 r c) ∧ (∀ q c, q ≤ c → q < m → c < n → s.A2 q c = s'.A2 q c) ∧
    (∀ l c, c < n → l ≤ c % ib → s.T l c = s'.T l c) := by
  obtain ⟨F, hF, hS⟩ := ttqrt_scheme hm hn hib W
  obtain ⟨F', hF', hS'⟩ := ttqrt_scheme hm hn hib W'
  obtain ⟨t, t', f, f', h⟩ := assemble_agr hib hS hS' (s := ⟨A1, A2, T⟩) (t := ⟨A1', A2', T'⟩)
    (by
      refine ⟨h1, fun q c h h' => h2 q c ?_ ?_ h, h3⟩ <;>
      · simp only [rowsV, if_true] at h'
        omega)
  rw [← hF, e] at f
  rw [← hF', e'] at f'
  cases f
  cases f'
  exact ⟨h.a1, fun q c h' h'' h3 => h.a2 q c h3 (by simp only [rowsV, if_true]; omega), h.t⟩

/-! ### The kernels of the LQ factorization -/

/-- **C61**, `plasma_core_ztslqt`: the new triangle times the unitary matrix that the reflectors make is the old triangle
beside the old `A2`; frame as in `C61_tsqrt`. -/
theorem C61_tslqt {m n ib lda1 : Nat} (hm : 0 < m) (hn : 0 < n) (hib : 0 < ib) (hld : m ≤ lda1) (W A1 A2 T : Tl 𝕜)
    {n1 : Nat} (hn1 : m ≤ n1) :
    ∃ s, ztslqt m n ib lda1 W A1 A2 T = some s ∧
      wy (n1 + n) m ib (tsV n1 (cT s.A2)) s.T ∈ unitaryGroup (Fin (n1 + n)) 𝕜 ∧
      (∀ i j, i < m → j < n1 + n → rmul (hstack n1 (tril s.A1) (fun _ _ => 0)) (wy (n1 + n) m ib (tsV n1 (cT s.A2)) s.T)ᴴ i j =
        hstack n1 (tril A1) A2 i j) ∧
      (∀ r c, r < m → r < c → s.A1 r c = A1 r c) ∧ (∀ l c, c % ib < l ∨ m ≤ c → s.T l c = T l c) := by
  obtain ⟨s, e, hf, hR⟩ := tslqt_rel hm hn hib hld W A1 A2 T (fun _ _ => 0)
  obtain ⟨h1, h2⟩ := ts_of_rel hn hm hib hR hn1
  refine ⟨s, e, h1, fun i j hi hj => ?_, fun r c hr hc => ?_, fun l c h => h.elim (hf.t l c) fun h => hR.keep c h l⟩
  · have h3 : cT (lmul _ _) i j = _ := congrArg star (h2 j i hj hi)
    rw [cT_lmul, cT_vstack, show triu (cs s).A1 = cT (tril s.A1) from (cT_tril _).symm, cT_cT] at h3
    refine Eq.trans ?_ (h3.trans ?_)
    · congr 2
      funext i j
      exact (star_zero _).symm
    · show cT (vstack n1 (triu (cT A1)) (cT A2)) i j = _
      rw [cT_vstack, ← cT_tril, cT_cT, cT_cT]
  · exact star_injective (hf.a1 c r hr hc)

/-- Sizes that do not fit the inner blocking. -/
example : ∃ s, ztslqt 3 4 2 5 (fun _ _ => 5) (fun i j => (i + 2 * j + 1 : ℂ)) (fun i j => (i - j : ℂ)) (fun _ _ => 7) = some s ∧
    wy (3 + 4) 3 2 (tsV 3 (cT s.A2)) s.T ∈ unitaryGroup (Fin (3 + 4)) ℂ :=
  (C61_tslqt (by omega) (by omega) (by omega) (by omega) _ _ _ _ (n1 := 3) (by omega)).imp fun _ h => ⟨h.1, h.2.1⟩

/-- **C61**, `plasma_core_zttlqt`, part: as `C61_ttqrt_partial`.

Missing: other contents of `T`; there it is false, see `C61_ttlqt_refuted`. -/
theorem C61_ttlqt_partial {m n ib : Nat} (hm : 0 < m) (hn : 0 < n) (hib : 0 < ib) (W A1 A2 T : Tl 𝕜)
    (hz : ∀ j, j < m → 0 < j % ib → (ttqrtK n m ib (cT A1) (cT A2)).T (j % ib) j ≠ 0 ∨ ∀ l, l < j % ib → T l j = 0)
    {n1 : Nat} (hn1 : m ≤ n1) :
    ∃ s, zttlqt m n ib W A1 A2 T = some s ∧
      wy (n1 + n) m ib (ttV n1 (cT s.A2)) s.T ∈ unitaryGroup (Fin (n1 + n)) 𝕜 ∧
      (∀ i j, i < m → j < n1 + n → rmul (hstack n1 (tril s.A1) (fun _ _ => 0)) (wy (n1 + n) m ib (ttV n1 (cT s.A2)) s.T)ᴴ i j =
        hstack n1 (tril A1) (tril A2) i j) := by
  obtain ⟨s, e, hf, hR⟩ := ttlqt_rel hm hn hib W A1 A2 T (fun _ _ => 0)
  obtain ⟨h1, h2⟩ := tt_of_rel hn hm hib (hR hz) hn1
  refine ⟨s, e, h1, fun i j hi hj => ?_⟩
  have h3 : cT (lmul _ _) i j = _ := congrArg star (h2 j i hj hi)
  rw [cT_lmul, cT_vstack, show triu (cs s).A1 = cT (tril s.A1) from (cT_tril _).symm, cT_cT] at h3
  refine Eq.trans ?_ (h3.trans ?_)
  · congr 2
    funext i j
    exact (star_zero _).symm
  · show cT (vstack n1 (triu (cT A1)) (triu (cT A2))) i j = _
    rw [cT_vstack, ← cT_tril, ← cT_tril, cT_cT, cT_cT]

/-- A `T` of zeros. -/
example : ∃ s, zttlqt 3 3 2 (fun _ _ => 5) (fun i j => (i + 2 * j + 1 : ℂ)) (fun i j => (i - j : ℂ)) (fun _ _ => 0) = some s ∧
    wy (3 + 3) 3 2 (ttV 3 (cT s.A2)) s.T ∈ unitaryGroup (Fin (3 + 3)) ℂ :=
  (C61_ttlqt_partial (by omega) (by omega) (by omega) _ _ _ _ (fun _ _ _ => Or.inr fun _ _ => rfl) (n1 := 3) (by omega)).imp
    fun _ h => ⟨h.1, h.2.1⟩

/-! ### What happens otherwise -/

/-- The documentation of `plasma_core_zpemv` promises `y := alpha op(A) x + beta y` (core_blas/core_zpemv.c:22-34). -/
theorem C61_pemv_partial {α : Type v} [CommRing α] [StarRing α] [DecidableEq α] {m n l : Nat} (hm : 0 < m) (hlm : l ≤ m) (hln : l ≤ n)
    {alpha beta : α} (h : ¬ (alpha = 0 ∧ beta = 0)) (A : Tl α) (X Y W : Nat → α) {p : Nat} (hp : p < n) :
    zpemv .conjTrans .columnwise m n l alpha A X beta Y W p =
      alpha * ∑ q ∈ range m, star (if m - l + p < q ∧ p < l then 0 else A q p) * X q + beta * Y p := by
  rw [zpemv_col rfl hm hlm hln h A X Y W hp]
  congr 2
  refine sum_congr rfl fun q hq => ?_
  have := mem_range.1 hq
  congr 2
  unfold Pent.pent
  by_cases hc : m - l + p < q ∧ p < l
  · rw [if_pos hc, if_pos (by omega)]
  · rw [if_neg hc, if_neg (by omega)]
    rfl

/-- A trapezoid of three rows, a triangle of two. -/
example : zpemv .conjTrans .columnwise 3 2 2 (2 : ℚ) (fun i j => i + 3 * j + 1) (fun i => i + 1) 0 (fun _ => 9) (fun _ => 4) 0 =
    2 * ∑ q ∈ range 3, star (if 1 + 0 < q ∧ 0 < 2 then 0 else ((q : ℚ) + 3 * ((0 : Nat) : ℚ) + 1)) * (q + 1) + 0 * 9 :=
  C61_pemv_partial (by omega) (by omega) (by omega) (by simp) _ _ _ _ (by omega)

/-- For `alpha = beta = 0` it leaves `y` alone. -/
theorem C61_pemv_refuted {α : Type v} [CommRing α] [StarRing α] [DecidableEq α] (m n l : Nat) (A : Tl α) (X W : Nat → α)
    {Y : Nat → α} {p : Nat} (hY : Y p ≠ 0) :
    zpemv .conjTrans .columnwise m n l 0 A X 0 Y W p ≠ 0 * (∑ q ∈ range m, star (A q p) * X q) + 0 * Y p := by
  rw [zpemv_zero, zero_mul, zero_mul, add_zero]
  exact hY

/-- Unitary matrices preserve inner products of columns. -/
theorem gram {d n : Nat} {Q : Matrix (Fin d) (Fin d) 𝕜} (hQ : Q ∈ unitaryGroup (Fin d) 𝕜) {X Y : Tl 𝕜}
    (h : ∀ i j, i < d → j < n → lmul Q X i j = Y i j) {a b : Nat} (ha : a < n) (hb : b < n) :
    ∑ r ∈ range d, star (X r a) * X r b = ∑ r ∈ range d, star (Y r a) * Y r b := by
  have e : (Matrix.of fun (i : Fin d) (j : Fin n) => Y i j) = Q * (Matrix.of fun (i : Fin d) (j : Fin n) => X i j) := by
    ext i j
    rw [Matrix.of_apply, ← h i j i.2 j.2, Matrix.mul_apply]
    unfold lmul
    rw [dif_pos i.2]
    rfl
  have g : (Matrix.of fun (i : Fin d) (j : Fin n) => X i j)ᴴ * (Matrix.of fun (i : Fin d) (j : Fin n) => X i j) =
      (Matrix.of fun (i : Fin d) (j : Fin n) => Y i j)ᴴ * (Matrix.of fun (i : Fin d) (j : Fin n) => Y i j) := by
    rw [e, Matrix.conjTranspose_mul, Matrix.mul_assoc, ← Matrix.mul_assoc Qᴴ]
    rw [show Qᴴ * Q = 1 from (mem_unitaryGroup_iff'.1 hQ), Matrix.one_mul]
  have := congrFun (congrFun g ⟨a, ha⟩) ⟨b, hb⟩
  rw [Matrix.mul_apply, Matrix.mul_apply] at this
  rw [← Fin.sum_univ_eq_sum_range (fun r => star (X r a) * X r b), ← Fin.sum_univ_eq_sum_range (fun r => star (Y r a) * Y r b)]
  exact this

/-- The triangle on top in the counterexample. -/
def wA1 : Tl 𝕜 := fun i j => if i = j ∨ (i = 0 ∧ j = 2) then 1 else 0
/-- The triangle below. -/
def wA2 : Tl 𝕜 := fun i j => if i = 0 ∧ j = 0 then 1 else 0

theorem wit {A1 A2 T : Tl 𝕜} (h1 : ∀ r c, r ≤ c → c < 3 → A1 r c = wA1 r c) (h2 : ∀ r c, r < 3 → c < 3 → A2 r c = wA2 r c) :
    Wit (⟨A1, A2, T⟩ : FSt 𝕜) where
  a00 := (h1 0 0 (by omega) (by omega)).trans (by simp [wA1])
  a01 := (h1 0 1 (by omega) (by omega)).trans (by simp [wA1])
  a02 := (h1 0 2 (by omega) (by omega)).trans (by simp [wA1])
  a11 := (h1 1 1 (by omega) (by omega)).trans (by simp [wA1])
  a12 := (h1 1 2 (by omega) (by omega)).trans (by simp [wA1])
  b00 := (h2 0 0 (by omega) (by omega)).trans (by simp [wA2])
  b01 := (h2 0 1 (by omega) (by omega)).trans (by simp [wA2])
  b11 := (h2 1 1 (by omega) (by omega)).trans (by simp [wA2])
  b2 q hq := (h2 q 2 hq (by omega)).trans (by simp [wA2])

/-- A triangle that does not come from the operands by a unitary matrix. -/
theorem not_gram {R : Tl 𝕜} (h01 : R 0 1 = 0) (h11 : R 1 1 = 1) (h12 : R 1 2 ≠ 0) {Q : Matrix (Fin (3 + 3)) (Fin (3 + 3)) 𝕜}
    (hQ : Q ∈ unitaryGroup (Fin (3 + 3)) 𝕜) :
    ¬ ∀ i j, i < 3 + 3 → j < 3 → lmul Q (vstack 3 (triu R) (fun _ _ => 0)) i j = vstack 3 (triu wA1) (triu wA2) i j := by
  intro h
  have := gram (n := 3) hQ h (a := 1) (b := 2) (by omega) (by omega)
  simp only [sum_range_succ, sum_range_zero, vstack, triu, wA1, wA2] at this
  norm_num [h01, h11] at this
  exact h12 this

/-- **C61** fails for `plasma_core_zttqrt`: with the contents `1` of `T` before the call, what it leaves is not a
factorization of the pair, whatever the workspace holds. -/
theorem C61_ttqrt_refuted : ∃ A1 A2 T : Tl 𝕜, ∀ W, ∃ s, zttqrt 3 3 2 W A1 A2 T = some s ∧
    ∀ Q : Matrix (Fin (3 + 3)) (Fin (3 + 3)) 𝕜, Q ∈ unitaryGroup (Fin (3 + 3)) 𝕜 →
      ¬ ∀ i j, i < 3 + 3 → j < 3 → lmul Q (vstack 3 (triu s.A1) (fun _ _ => 0)) i j = vstack 3 (triu A1) (triu A2) i j := by
  refine ⟨wA1, wA2, fun _ _ => 1, fun W => ?_⟩
  obtain ⟨F, hF, hS⟩ := ttqrt_scheme (m := 3) (n := 3) (ib := 2) (by omega) (by omega) (by omega) W
  obtain ⟨s, e, h01, h11, h12, -⟩ := stale_core hS (s0 := ⟨wA1, wA2, fun _ _ => 1⟩) (wit (fun _ _ _ _ => rfl) (fun _ _ _ _ => rfl))
  refine ⟨s, (hF ..).trans e, fun Q hQ => not_gram h01 h11 ?_ hQ⟩
  rw [h12]
  show -star (ltau (1 : 𝕜) 1 * 1) ≠ 0
  rw [mul_one]
  exact neg_ne_zero.2 (star_ne_zero.2 ltau_one_ne)

/-- **C61** fails for `plasma_core_zttlqt` in the same way. -/
theorem C61_ttlqt_refuted : ∃ A1 A2 T : Tl 𝕜, ∀ W, ∃ s, zttlqt 3 3 2 W A1 A2 T = some s ∧
    ∀ Q : Matrix (Fin (3 + 3)) (Fin (3 + 3)) 𝕜, Q ∈ unitaryGroup (Fin (3 + 3)) 𝕜 →
      ¬ ∀ i j, i < 3 → j < 3 + 3 → rmul (hstack 3 (tril s.A1) (fun _ _ => 0)) Q i j = hstack 3 (tril A1) (tril A2) i j := by
  refine ⟨cT wA1, cT wA2, fun _ _ => 1, fun W => ?_⟩
  obtain ⟨F, hF, hS⟩ := ttlqt_scheme (m := 3) (n := 3) (ib := 2) (by omega) (by omega) (by omega) W
  obtain ⟨s, e, h01, h11, h12, -⟩ := stale_core hS (s0 := ⟨cT wA1, cT wA2, fun _ _ => 1⟩)
    (wit (fun r c _ _ => star_star _) (fun r c _ _ => star_star _))
  refine ⟨s, (hF ..).trans e, fun Q hQ h => ?_⟩
  refine not_gram (Q := Qᴴ) (R := cT s.A1) h01 h11 ?_ ?_ fun i j hi hj => ?_
  · refine h12.trans_ne ?_
    show -star (ltau (1 : 𝕜) 1 * 1) ≠ 0
    rw [mul_one]
    exact neg_ne_zero.2 (star_ne_zero.2 ltau_one_ne)
  · exact Unitary.star_mem hQ
  · have h3 : cT (rmul _ _) i j = _ := congrArg star (h j i hj hi)
    rw [cT_rmul, cT_hstack, cT_tril] at h3
    refine Eq.trans ?_ (h3.trans ?_)
    · congr 2
      funext i j
      exact (star_zero _).symm
    · show cT (hstack 3 (tril (cT wA1)) (tril (cT wA2))) i j = _
      rw [cT_hstack, cT_tril, cT_tril, cT_cT, cT_cT]

/-! ### A factorization that is wrong because of what `T` held before -/

/-- The factorization of a triangular tile with real diagonal leaves all tiles but that of `T` alone. -/
theorem ge_keep {M : Type} {A T : TMat M} (hTA : T.id ≠ A.id) {m n ib r c : Nat} {s : Store (M × Nat × Nat) 𝕜}
    (hz : ∀ i j, i < m → j < n → j < i → s (A.at' r c) i j = 0) (him : ∀ j, j < m → j < n → RCLike.im (s (A.at' r c) j j) = 0)
    {y : M × Nat × Nat} (hy : y ≠ T.at' r c) {i j : Nat} :
    (geqrtT lkern m n ib (A.at' r c) (T.at' r c)).run s y i j = s y i j := by
  have hnd : ([A.at' r c, T.at' r c] : List _).Nodup := by
    rw [List.nodup_cons]
    exact ⟨fun e => TMat.at'_ne hTA (List.mem_singleton.mp e).symm, List.nodup_singleton _⟩
  by_cases e : y = A.at' r c
  · rw [e]
    refine (congrFun (congrFun (wop_at (ws := [⟨_, _, _⟩, ⟨_, _, _⟩]) hnd (w := ⟨A.at' r c, box m n, _⟩)
      List.mem_cons_self s) i) j).trans ?_
    by_cases hb : box m n i j
    · rw [paste_in hb]
      show (hqr m n (min m n) ib geSup ⟨geX m n (s (A.at' r c)), fun _ _ => 0⟩).X i j = _
      rw [hqr_id]
      · exact if_pos hb
      · intro j
        unfold geX
        split_ifs with h
        · exact him j h.1 h.2
        · exact map_zero _
      · intro j r' h
        have h' : j < r' := of_decide_eq_true h
        unfold geX
        split_ifs with h3
        · exact hz r' j h3.1 h3.2 h'
        · rfl
      · intro r' c' h
        exact if_neg fun h3 => by omega
    · rw [paste_out hb]
  · unfold geqrtT
    rw [wop_ne]
    intro w hw
    simp only [List.mem_cons, List.not_mem_nil, or_false] at hw
    rcases hw with rfl | rfl
    · exact e
    · exact hy

/-- The operations for two by one tiles. -/
theorem list_two_one (c : Nat) : treeList 2 1 c = [.ge 0 1, .ge 0 0, .tt 0 1 0] := by
  refine (treeList_congr (c2 := 1) ?_).trans rfl
  unfold blockSize
  simp

/-- The tasks for two by one tiles. -/
theorem texec_two_one {M : Type} {A T : TMat M} {off : Nat → Nat} (hmv : ∀ k, k < 2 → A.d.mview k = 3) (hnv : A.d.nview 0 = 3)
    (hnt : A.d.nt = 1) (ho : off 0 = 1) (s : Store (M × Nat × Nat) 𝕜) :
    texec ([Op.ge 0 1, .ge 0 0, .tt 0 1 0].flatMap (facT lkern 2 off A T)) s =
      (ttqrtT lkern 3 3 2 (A.at' 0 0) (A.at' 1 0) (T.at' 1 1)).run ((geqrtT lkern 3 3 2 (A.at' 0 0) (T.at' 0 0)).run
        ((geqrtT lkern 3 3 2 (A.at' 1 0) (T.at' 1 0)).run s)) := by
  have hsp : span (0 + 1) A.d.nt = [] := by
    rw [hnt]
    rfl
  simp only [List.flatMap_cons, List.flatMap_nil, List.append_nil, facT, kerT, Op.col, hsp, updL, List.map_nil, hmv 0 (by omega),
    hmv 1 (by omega), hnv, ho, List.cons_append, List.nil_append]
  rfl

/-- **C61**, consequence for `plasma_zgeqrf`: there are a matrix of 6 by 3 elements and contents of the array `T`, which the
library allocates and does not set, such that the factorization in tree mode (tiles of 3 by 3 elements, inner blocking 2,
any number of threads) leaves in the upper triangle of `A` something that no unitary matrix takes to the given matrix. -/
theorem C61_geqrf_stale : ∃ mem : Buf × Nat → 𝕜, ∀ c, 0 < c →
    (∃ mem', Exec (qrEnv (some c) 2 3 6 3 (6, 3) 6 (0, 0) 0) (zgeqrf lkern (some c) 2 3 6 3) mem mem') ∧
    ∀ mem', Exec (qrEnv (some c) 2 3 6 3 (6, 3) 6 (0, 0) 0) (zgeqrf lkern (some c) 2 3 6 3) mem mem' →
      ∀ Q : Matrix (Fin 6) (Fin 6) 𝕜, Q ∈ unitaryGroup (Fin 6) 𝕜 → Q * uArrU mem' 0 6 6 3 ≠ uArr mem 0 6 6 3 := by
  let mem : Buf × Nat → 𝕜 := fun p => if p.1 = .usr 1 then 1 else if p.1 = .usr 0 then
    vstack 3 wA1 wA2 (p.2 % 6) (p.2 / 6) else 0
  refine ⟨mem, fun c hc => ?_⟩
  have hok : HMode.ok (some c) := by intro c' h; cases h; exact hc
  refine ⟨geqrf_exists lkern_spec hok (by omega) (by omega) (by omega) mem, fun mem' h Q hQ e => ?_⟩
  obtain ⟨s, g1, g2, -, g4⟩ := geqrf_state lkern_spec hok (by omega) (by omega) (by omega) (by omega) h
  set A := tVw 3 (qrDims (6, 3) (0, 0)) (qrDims (6, 3) (0, 0)) 0 with hA
  set T := qrT (some c) 2 3 6 3 with hT
  have hAl : A.Al 3 := al_tVw (by omega) 0
  have hTA : T.id ≠ A.id := fun e => by cases e
  have hmv : ∀ k, k < 2 → A.d.mview k = 3 := fun k hk => by
    rw [hAl.mview (by rw [al_mt (by omega)]; exact hk)]
    show tdim 6 3 k = 3
    unfold tdim; omega
  have hnv : A.d.nview 0 = 3 := by
    rw [hAl.nview (by rw [al_nt (by omega)]; decide)]
    rfl
  have hel : ∀ (s : Store (Buf × Nat × Nat) 𝕜) k i j, i < 3 → j < 3 → A.el s (3 * k + i) j = s (A.at' k 0) i j := by
    intro s k i j hi hj
    show s (A.at' ((3 * k + i) / 3) (j / 3)) ((3 * k + i) % 3) (j % 3) = _
    rw [show (3 * k + i) / 3 = k by omega, show j / 3 = 0 by omega, show (3 * k + i) % 3 = i by omega, Nat.mod_eq_of_lt hj]
  have hmem : ∀ r c, r < 6 → mem (.usr 0, r + c * 6) = vstack 3 wA1 wA2 r c := by
    intro r c hr
    show (if Buf.usr 0 = .usr 1 then (1 : 𝕜) else if Buf.usr 0 = .usr 0 then
      vstack 3 wA1 wA2 ((r + c * 6) % 6) ((r + c * 6) / 6) else 0) = _
    rw [if_neg (fun e => by cases e), if_pos rfl, show (r + c * 6) % 6 = r by omega, show (r + c * 6) / 6 = c by omega]
  have h0 : ∀ i j, i < 3 → j < 3 → s (A.at' 0 0) i j = wA1 i j := by
    intro i j hi hj
    rw [← hel s 0 i j hi hj, g1 _ _ (by omega) hj, hmem _ _ (by omega)]
    exact if_pos (by omega) |>.trans (by rw [Nat.mul_zero, Nat.zero_add])
  have h1 : ∀ i j, i < 3 → j < 3 → s (A.at' 1 0) i j = wA2 i j := by
    intro i j hi hj
    rw [← hel s 1 i j hi hj, g1 _ _ (by omega) hj, hmem _ _ (by omega)]
    exact if_neg (by omega) |>.trans (by rw [show 3 * 1 + i - 3 = i by omega])
  have hTt : ∀ i j, s (T.at' 1 1) i j = 1 := by
    intro i j
    rw [g2 _ _ _ rfl]
    exact if_pos rfl
  -- the two tiles are triangular
  let s1 := (geqrtT lkern 3 3 2 (A.at' 1 0) (T.at' 1 0)).run s
  let s2 := (geqrtT lkern 3 3 2 (A.at' 0 0) (T.at' 0 0)).run s1
  let s3 := (ttqrtT lkern 3 3 2 (A.at' 0 0) (A.at' 1 0) (T.at' 1 1)).run s2
  have k1 : ∀ y i j, y ≠ T.at' 1 0 → s1 y i j = s y i j := by
    intro y i j hy
    refine ge_keep hTA (fun i j hi hj hij => ?_) (fun j hj _ => ?_) hy
    · rw [h1 i j hi hj]
      exact if_neg (by omega)
    · rw [h1 j j hj hj]
      unfold wA2
      split_ifs
      · exact RCLike.one_im
      · exact map_zero _
  have k2 : ∀ y i j, y ≠ T.at' 1 0 → y ≠ T.at' 0 0 → s2 y i j = s y i j := by
    intro y i j hy hy'
    refine (ge_keep hTA (fun i j hi hj hij => ?_) (fun j hj _ => ?_) hy').trans (k1 y i j hy)
    · rw [k1 _ _ _ (TMat.at'_ne hTA.symm), h0 i j hi hj]
      exact if_neg (by omega)
    · rw [k1 _ _ _ (TMat.at'_ne hTA.symm), h0 j j hj hj]
      exact (congrArg _ (if_pos (by omega))).trans RCLike.one_im
  have hfin : texec ((hOps (some c) (ceilDiv 6 3) (ceilDiv 3 3)).flatMap (facT lkern 2 (hOff (some c) T) A T)) s = s3 := by
    have el : hOps (some c) (ceilDiv 6 3) (ceilDiv 3 3) = [.ge 0 1, .ge 0 0, .tt 0 1 0] := list_two_one c
    rw [el]
    refine texec_two_one hmv hnv ?_ ?_ s
    · rw [al_nt (by omega)]
      rfl
    · show 0 + (qrT (some c) 2 3 6 3).d.nt / 2 = 1
      exact (by decide : 0 + (descT (some 0) 2 (general 3 3 6 3 0 0 6 3)).nt / 2 = 1)
  rw [hfin] at g4
  -- the triangle on top
  obtain ⟨F, hF, hS⟩ := ttqrt_scheme (𝕜 := 𝕜) (m := 3) (n := 3) (ib := 2) (by omega) (by omega) (by omega) (fun _ _ => 0)
  obtain ⟨f, ef, h01, h11, h12, -⟩ := stale_core hS (s0 := ⟨s2 (A.at' 0 0), s2 (A.at' 1 0), s2 (T.at' 1 1)⟩)
    (wit (fun r c hr hc => (k2 _ _ _ (TMat.at'_ne hTA.symm) (TMat.at'_ne hTA.symm)).trans (h0 r c (by omega) hc))
      (fun r c hr hc => (k2 _ _ _ (TMat.at'_ne hTA.symm) (TMat.at'_ne hTA.symm)).trans (h1 r c hr hc)))
  have hnd : ([A.at' 0 0, A.at' 1 0, T.at' 1 1] : List _).Nodup := by
    refine List.nodup_cons.mpr ⟨fun e => ?_, List.nodup_cons.mpr ⟨fun e => ?_, List.nodup_singleton _⟩⟩
    · simp only [List.mem_cons, List.not_mem_nil, or_false] at e
      rcases e with e | e
      · have := (TMat.at'_inj.mp e).1
        omega
      · exact TMat.at'_ne hTA e.symm
    · exact TMat.at'_ne hTA (List.mem_singleton.mp e).symm
  have h3 : ∀ i j, i ≤ j → j < 3 → mem' (.usr 0, i + j * 6) = f.A1 i j := by
    intro i j hi hj
    rw [g4 i j (by omega) hj]
    refine (show A.el s3 i j = _ from ?_)
    have := hel s3 0 i j (by omega) hj
    rw [Nat.mul_zero, Nat.zero_add] at this
    rw [this]
    refine (congrFun (congrFun (wop_at (ws := [⟨_, _, _⟩, ⟨_, _, _⟩, ⟨_, _, _⟩]) hnd (w := ⟨A.at' 0 0, upTo 3, _⟩)
      List.mem_cons_self s2) i) j).trans ?_
    rw [paste_in (show upTo 3 i j from ⟨hi, hj⟩)]
    show (fsD (fun _ _ => 0) 3 3 2 (s2 (A.at' 0 0)) (s2 (A.at' 1 0)) (s2 (T.at' 1 1))).A1 i j = _
    unfold fsD
    rw [(hF ..).trans ef]
    rfl
  refine not_gram (R := f.A1) h01 h11 ?_ hQ fun i j hi hj => ?_
  · refine h12.trans_ne ?_
    show -star (ltau (1 : 𝕜) 1 * s2 (T.at' 1 1) 0 1) ≠ 0
    rw [k2 _ _ _ (at'_ne_col (by decide)) (at'_ne_col (by decide)), hTt, mul_one]
    exact neg_ne_zero.2 (star_ne_zero.2 ltau_one_ne)
  · have e1 := congrFun (congrFun e ⟨i, hi⟩) ⟨j, hj⟩
    rw [Matrix.mul_apply] at e1
    unfold lmul
    rw [dif_pos hi]
    refine Eq.trans (sum_congr rfl fun l _ => congrArg _ ?_) (e1.trans ?_)
    · have hl : (l : Nat) < 6 := l.2
      unfold vstack triu uArrU
      rw [Matrix.of_apply]
      split_ifs with p q q
      · exact (h3 l j q hj).symm
      · rfl
      · omega
      · rfl
    · show mem (.usr 0, i + j * 6) = _
      rw [hmem i j hi]
      unfold vstack triu
      split_ifs with p q q
      · rfl
      · exact if_neg (by omega)
      · rfl
      · exact if_neg (by omega)

end

end Verif.Props

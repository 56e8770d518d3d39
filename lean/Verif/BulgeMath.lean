/-
What the bulge chasing computes: one sweep after the other turns a band matrix into a bidiagonal one, by unitary transformations.
-/
import Verif.BulgeKern
import Verif.Ge2gbBand

namespace Verif.Bulge

open Verif.Sched Verif.Tile Verif.Fact Verif.Qr Finset Matrix

set_option linter.unusedSectionVars false

universe v

section
variable {𝕜 : Type v} [RCLike 𝕜]

/-- The vector of the reflector. -/
noncomputable def wvec (y : Nat → 𝕜) (len : Nat) (l : Nat) : 𝕜 :=
  if l = 0 then 1 else (larfg len (y 0) fun i => y (1 + i)).2.1 (l - 1)

theorem lbet_real (a : 𝕜) (x2 : ℝ) : star (lbet a x2) = lbet a x2 := by
  unfold lbet
  split_ifs with h
  · rw [RCLike.star_def]
    exact RCLike.conj_eq_iff_im.mpr h.2
  · exact star_ofReal' _

theorem larfg_real (k : Nat) (a : 𝕜) (x : Nat → 𝕜) : star (larfg k a x).1 = (larfg k a x).1 := lbet_real _ _

/-- `zlarfg` makes a unitary reflector that annihilates all but the first entry. -/
theorem larfg_refl (y : Nat → 𝕜) {len : Nat} (hlen : 0 < len) :
    refl len (wvec y len) (larfg len (y 0) fun i => y (1 + i)).2.2 ∈ unitaryGroup (Fin len) 𝕜 ∧
    ∀ i, i < len → y i - wvec y len i * (star (larfg len (y 0) fun i => y (1 + i)).2.2 * ∑ l ∈ range len, star (wvec y len l) * y l) =
      if i = 0 then (larfg len (y 0) fun i => y (1 + i)).1 else 0 := by
  obtain ⟨k, rfl⟩ : ∃ k, len = k + 1 := ⟨len - 1, by omega⟩
  have hx2 : (0 : ℝ) ≤ ∑ q ∈ range k, ‖y (1 + q)‖ ^ 2 := sum_nonneg fun _ _ => by positivity
  have hg : larfg (k + 1) (y 0) (fun i => y (1 + i)) = (lbet (y 0) (∑ q ∈ range k, ‖y (1 + q)‖ ^ 2),
      fun q => if q < k then y (1 + q) * lscal (y 0) (∑ q ∈ range k, ‖y (1 + q)‖ ^ 2) else y (1 + q),
      ltau (y 0) (∑ q ∈ range k, ‖y (1 + q)‖ ^ 2)) := rfl
  have hw0 : wvec y (k + 1) 0 = 1 := if_pos rfl
  have hw : ∀ l, l < k → wvec y (k + 1) (l + 1) = y (1 + l) * lscal (y 0) (∑ q ∈ range k, ‖y (1 + q)‖ ^ 2) := by
    intro l hl
    unfold wvec
    rw [if_neg (by omega), hg]
    simp only [Nat.add_sub_cancel]
    rw [if_pos hl]
  have e2 : ((∑ q ∈ range k, ‖y (1 + q)‖ ^ 2 : ℝ) : 𝕜) = ∑ q ∈ range k, star (y (1 + q)) * y (1 + q) := by
    rw [RCLike.ofReal_sum]
    exact sum_congr rfl fun q _ => by rw [← norm_sq_star]; simp
  rw [hg]
  set x2 := ∑ q ∈ range k, ‖y (1 + q)‖ ^ 2 with hx
  simp only
  have hs1 : ∑ l ∈ range (k + 1), star (wvec y (k + 1) l) * y l = y 0 + star (lscal (y 0) x2) * (x2 : 𝕜) := by
    rw [sum_range_succ', hw0, star_one, one_mul, add_comm, e2, mul_sum]
    congr 1
    refine sum_congr rfl fun l hl => ?_
    rw [hw l (mem_range.mp hl), star_mul, Nat.add_comm l 1]
    ring
  obtain ⟨ha1, ha2⟩ := larfg_ann (y 0) hx2
  constructor
  · refine refl_unit ?_
    rw [← larfg_unit (y 0) hx2]
    congr 1
    rw [Finset.sum_fin_eq_sum_range]
    have e : ∑ i ∈ range (k + 1), (if h : i < k + 1 then star (wvec y (k + 1) ((⟨i, h⟩ : Fin (k + 1)) : Nat)) *
        wvec y (k + 1) ((⟨i, h⟩ : Fin (k + 1)) : Nat) else 0) = ∑ i ∈ range (k + 1), star (wvec y (k + 1) i) * wvec y (k + 1) i :=
      sum_congr rfl fun i hi => by rw [dif_pos (mem_range.mp hi)]
    rw [e, sum_range_succ', hw0, star_one, one_mul, add_comm, e2, mul_sum]
    congr 1
    refine sum_congr rfl fun l hl => ?_
    rw [hw l (mem_range.mp hl), star_mul]
    ring
  · intro i hi
    rw [hs1, ha1]
    rcases i with _ | i
    · rw [hw0, if_pos rfl]
      ring
    · rw [if_neg (by omega), hw i (by omega), Nat.add_comm i 1]
      by_cases h0 : x2 = 0
      · have : ‖y (1 + i)‖ ^ 2 = 0 := by
          rw [hx] at h0
          exact (sum_eq_zero_iff_of_nonneg fun _ _ => by positivity).mp h0 i (mem_range.mpr (by omega))
        have h1 : y (1 + i) = 0 := by simpa using this
        rw [h1]
        ring
      · rw [mul_assoc, ha2 h0, mul_one, sub_self]

/-! ### One full transformation from the right -/

/-- A reflector made of row `r` and applied to rows `r+1 .. r+m`. -/
noncomputable def Rst (h r c0 len m : Nat) (s : Store CM 𝕜) : Store CM 𝕜 :=
  appR .p .tp h c0 len (r + 1) m (genRow .p .tp h r c0 len s)

/-- A reflector made of column `c` and applied to columns `c+1 .. c+m`. -/
noncomputable def Lst (h c r0 len m : Nat) (s : Store CM 𝕜) : Store CM 𝕜 :=
  appL .q .tq h r0 len (c + 1) m (genCol .q .tq h c r0 len s)

variable {n nb h r c0 len m : Nat} {s : Store CM 𝕜}

theorem Rst_out {i j : Nat} (hx : ¬ (r ≤ i ∧ i ≤ r + m ∧ c0 ≤ j ∧ j < c0 + len)) (hlen : 0 < len) : Rst h r c0 len m s .a i j = s .a i j := by
  unfold Rst appR
  rw [if_neg (by rintro ⟨-, h1, h2, h3, h4⟩; exact hx ⟨by omega, by omega, h3, h4⟩)]
  unfold genRow
  simp only [if_true]
  rw [if_neg (by rintro ⟨rfl, rfl⟩; exact hx ⟨by omega, by omega, by omega, by omega⟩),
    if_neg (by rintro ⟨rfl, h2, h3⟩; exact hx ⟨by omega, by omega, by omega, by omega⟩)]

theorem Rst_row (hlen : 0 < len) : star (Rst h r c0 len m s .a r c0) = Rst h r c0 len m s .a r c0 ∧
    ∀ j, c0 < j → j < c0 + len → Rst h r c0 len m s .a r j = 0 := by
  have e : ∀ j, Rst h r c0 len m s .a r j = genRow .p .tp h r c0 len s .a r j := by
    intro j
    unfold Rst appR
    rw [if_neg (by rintro ⟨-, h1, -⟩; omega)]
  refine ⟨?_, fun j h1 h2 => ?_⟩
  · rw [e]
    unfold genRow
    simp only [and_self, if_true]
    exact larfg_real _ _ _
  · rw [e]
    unfold genRow
    simp only [if_true]
    rw [if_neg (by omega), if_pos ⟨trivial, h1, h2⟩]

/-- The reflector in row `h` of `V`, as a vector of full length. -/
def vecAt (V : CM) (h c0 len : Nat) (s : Store CM 𝕜) (r : Nat) : 𝕜 := if c0 ≤ r ∧ r < c0 + len then s V h r else 0

theorem gemb_refl {w : Nat → 𝕜} {τ : 𝕜} (hc : c0 + len ≤ n) :
    gemb n (fun l => c0 + l) (Qr.refl len w τ) = Qr.refl n (fun r => if c0 ≤ r ∧ r < c0 + len then w (r - c0) else 0) τ := by
  have e : ∀ r : Fin n, ∑ l : Fin len, selM 𝕜 n len (fun l => c0 + l) r l * w l = if c0 ≤ r.1 ∧ r.1 < c0 + len then w (r.1 - c0) else 0 := by
    intro r
    unfold selM
    simp only [Matrix.of_apply, ite_mul, one_mul, zero_mul]
    split
    · rename_i h
      rw [Finset.sum_eq_single (⟨r.1 - c0, by omega⟩ : Fin len)]
      · rw [if_pos (by simp only; omega)]
      · intro b _ hb
        rw [if_neg]
        intro h2
        exact hb (Fin.ext (by simp only; omega))
      · intro h2
        exact absurd (mem_univ _) h2
    · rename_i h
      refine Finset.sum_eq_zero fun l _ => ?_
      rw [if_neg]
      have := l.2
      omega
  have e2 : ∀ r : Fin n, ∑ l : Fin len, star (w l) * star (selM 𝕜 n len (fun l => c0 + l) r l) =
      star (if c0 ≤ r.1 ∧ r.1 < c0 + len then w (r.1 - c0) else 0) := by
    intro r
    rw [← e r, star_sum]
    exact sum_congr rfl fun l _ => by rw [star_mul]
  ext r c
  unfold gemb Qr.refl
  simp only [Matrix.add_apply, Matrix.sub_apply, Matrix.of_apply, sub_sub_cancel_left, Matrix.mul_apply, Matrix.neg_apply,
    Matrix.conjTranspose_apply]
  rw [← e r, ← e2 c, sub_eq_add_neg]
  congr 1
  rw [Finset.mul_sum, ← Finset.sum_neg_distrib]
  refine sum_congr rfl fun j _ => ?_
  have e3 : ∑ l : Fin len, selM 𝕜 n len (fun l => c0 + l) r l * -(w l * τ * star (w j)) =
      -((∑ l : Fin len, selM 𝕜 n len (fun l => c0 + l) r l * w l) * τ * star (w j)) := by
    rw [Finset.sum_mul, Finset.sum_mul, ← Finset.sum_neg_distrib]
    exact sum_congr rfl fun _ _ => by ring
  rw [e3]
  ring

/-- **A full transformation from the right**: if the columns are zero outside rows `r .. r+m`. -/
theorem Rst_mat (hlen : 0 < len) (hc : c0 + len ≤ n) (hz : ∀ i j, i < n → ¬ (r ≤ i ∧ i ≤ r + m) → c0 ≤ j → j < c0 + len → s .a i j = 0) :
    Qr.refl n (vecAt .p h c0 len (Rst h r c0 len m s)) (Rst h r c0 len m s .tp h c0) ∈ unitaryGroup (Fin n) 𝕜 ∧
    mat n n (Rst h r c0 len m s .a) = mat n n (s .a) * Qr.refl n (vecAt .p h c0 len (Rst h r c0 len m s)) (Rst h r c0 len m s .tp h c0) := by
  set y : Nat → 𝕜 := fun l => star (s .a r (c0 + l)) with hy
  set g := larfg len (y 0) fun i => y (1 + i) with hg
  obtain ⟨hu, hann⟩ := larfg_refl y hlen
  have hrm : RowMap n len (fun l => c0 + l) := ⟨fun l hl => by omega, fun l l' _ _ e => by omega⟩
  have hgen : larfg len (star (s .a r c0)) (fun i => star (s .a r (c0 + 1 + i))) = g := by
    rw [hg, hy]
    simp only [Nat.add_zero, Nat.add_assoc]
  have gV : ∀ l, l < len → genRow .p .tp h r c0 len s .p h (c0 + l) = wvec y len l := by
    intro l hl
    unfold genRow wvec
    simp only [reduceCtorEq, if_false, if_true]
    rw [hgen]
    rcases l with _ | l
    · simp
    · rw [if_neg (by omega), if_pos ⟨trivial, by omega, by omega⟩, if_neg (by omega), show c0 + (l + 1) - c0 - 1 = l + 1 - 1 by omega]
  have gT : genRow .p .tp h r c0 len s .tp h c0 = g.2.2 := by
    unfold genRow
    simp only [reduceCtorEq, if_false, if_true, and_self]
    rw [hgen]
  have gA : ∀ i j, i ≠ r → genRow .p .tp h r c0 len s .a i j = s .a i j := by
    intro i j hi
    unfold genRow
    simp only [if_true]
    rw [if_neg (fun e => hi e.1), if_neg (fun e => hi e.1)]
  have eP : Qr.refl n (vecAt .p h c0 len (Rst h r c0 len m s)) (Rst h r c0 len m s .tp h c0) =
      gemb n (fun l => c0 + l) (Qr.refl len (wvec y len) g.2.2) := by
    rw [gemb_refl hc]
    have e1 : Rst h r c0 len m s .tp h c0 = g.2.2 := by
      unfold Rst appR
      rw [if_neg (by simp)]
      exact gT
    rw [e1]
    congr 1
    funext i
    unfold vecAt
    split
    · rename_i hi
      have e2 : Rst h r c0 len m s .p h i = genRow .p .tp h r c0 len s .p h i := by
        unfold Rst appR
        rw [if_neg (by simp)]
      rw [e2, show i = c0 + (i - c0) by omega, gV _ (by omega), Nat.add_sub_cancel_left]
    · rfl
  rw [eP]
  refine ⟨gemb_unitary hrm hu, ?_⟩
  ext ⟨i, hi⟩ ⟨j, hj⟩
  rw [mat_mul, mat_apply]
  show Rst h r c0 len m s .a i j = rmul (s .a) _ i j
  by_cases hjc : c0 ≤ j ∧ j < c0 + len
  · obtain ⟨l, rfl⟩ : ∃ l, j = c0 + l := ⟨j - c0, by omega⟩
    have hl : l < len := by omega
    rw [rmul_gemb_in hrm _ _ hl]
    have e : rmul (fun r l => s .a r (c0 + l)) (Qr.refl len (wvec y len) g.2.2) i l =
        s .a i (c0 + l) - (∑ l' ∈ range len, s .a i (c0 + l') * wvec y len l') * g.2.2 * star (wvec y len l) := by
      unfold rmul Qr.refl
      rw [dif_pos hl]
      simp only [Matrix.sub_apply, Matrix.of_apply, mul_sub, sum_sub_distrib, Matrix.one_apply, mul_ite, mul_one, mul_zero]
      rw [sum_ite_eq' univ (⟨l, hl⟩ : Fin len), if_pos (mem_univ _)]
      congr 1
      rw [Finset.sum_fin_eq_sum_range, Finset.sum_mul, Finset.sum_mul]
      refine sum_congr rfl fun l' hl' => ?_
      rw [dif_pos (mem_range.mp hl')]
      simp only
      ring
    rw [e]
    by_cases hir : i = r
    · subst hir
      have h1 := hann l hl
      have h2 : s .a i (c0 + l) - (∑ l' ∈ range len, s .a i (c0 + l') * wvec y len l') * g.2.2 * star (wvec y len l) =
          star (y l - wvec y len l * (star g.2.2 * ∑ l' ∈ range len, star (wvec y len l') * y l')) := by
        simp only [hy, star_sub, star_mul, star_star, star_sum]
      rw [h2, h1]
      by_cases h0 : l = 0
      · subst h0
        rw [if_pos rfl]
        have h3 : Rst h i c0 len m s .a i (c0 + 0) = g.1 := by
          unfold Rst appR
          rw [if_neg (by rintro ⟨-, h1, -⟩; omega)]
          unfold genRow
          simp only [Nat.add_zero, and_self, if_true]
          rw [hgen]
        rw [h3]
        exact (larfg_real _ _ _).symm
      · rw [if_neg h0, star_zero]
        exact (Rst_row hlen).2 _ (by omega) (by omega)
    · by_cases him : r ≤ i ∧ i ≤ r + m
      · unfold Rst appR
        rw [if_pos ⟨rfl, by omega, by omega, by omega, by omega⟩, gA i _ hir, gT, gV l hl]
        congr 3
        refine sum_congr rfl fun l' hl' => ?_
        rw [gA i _ hir, gV l' (mem_range.mp hl')]
      · rw [Rst_out (fun e => him ⟨e.1, e.2.1⟩) hlen]
        have h0 : ∀ l', l' < len → s .a i (c0 + l') = 0 := fun l' hl' => hz i _ hi him (by omega) (by omega)
        rw [sum_eq_zero (fun l' hl' => by rw [h0 l' (mem_range.mp hl'), zero_mul])]
        ring
  · rw [Rst_out (fun e => hjc e.2.2) hlen, rmul_gemb_out _ _ (fun l hl e => hjc (by omega))]

theorem Rst_ueq (hlen : 0 < len) (hc : c0 + len ≤ n) (hz : ∀ i j, i < n → ¬ (r ≤ i ∧ i ≤ r + m) → c0 ≤ j → j < c0 + len → s .a i j = 0) :
    UEq (mat n n (s .a)) (mat n n (Rst h r c0 len m s .a)) := by
  obtain ⟨h1, h2⟩ := Rst_mat (h := h) hlen hc hz
  refine UEq.right (Unitary.star_mem h1) ?_
  rw [h2, Matrix.mul_assoc, mem_unitaryGroup_iff.mp h1, Matrix.mul_one]

/-! ### Transposition -/

/-- The conjugate transpose, with `Q` and `P` exchanged. -/
def flip (s : Store CM 𝕜) : Store CM 𝕜 := fun x i j => match x with
  | .a => star (s .a j i)
  | .q => s .p i j
  | .p => s .q i j
  | .tq => s .tp i j
  | .tp => s .tq i j
  | x => s x i j

theorem flip_flip : flip (flip s) = s := by
  funext x i j
  cases x <;> simp [flip]

theorem genCol_flip {c st : Nat} : genCol .q .tq h c st len (flip s) = flip (genRow .p .tp h c st len s) := by
  have hg : larfg len (flip s .a st c) (fun i => flip s .a (st + 1 + i) c) =
      larfg len (star (s .a c st)) fun i => star (s .a c (st + 1 + i)) := rfl
  funext x i j
  unfold genCol
  rw [hg]
  cases x <;> simp only [flip, genRow, reduceCtorEq, if_true, if_false]
  split_ifs
  · exact (larfg_real _ _ _).symm
  · rw [star_zero]
  · rfl

theorem genRow_flip {c st : Nat} : genRow .p .tp h c st len (flip s) = flip (genCol .q .tq h c st len s) := by
  have := genCol_flip (h := h) (c := c) (st := st) (len := len) (s := flip s)
  rw [flip_flip] at this
  rw [this, flip_flip]

theorem appL_flip {st c0 : Nat} : appL .q .tq h st len c0 m (flip s) = flip (appR .p .tp h st len c0 m s) := by
  funext x i j
  unfold appL
  cases x
  case a =>
    simp only [flip, appR, true_and]
    by_cases hc : st ≤ i ∧ i < st + len ∧ c0 ≤ j ∧ j < c0 + m
    · rw [if_pos hc, if_pos ⟨hc.2.2.1, hc.2.2.2, hc.1, hc.2.1⟩]
      simp only [star_sub, star_mul, star_star, star_sum]
      congr 1
      rw [mul_assoc]
    · rw [if_neg hc, if_neg (fun e => hc ⟨e.2.2.1, e.2.2.2, e.1, e.2.1⟩)]
  all_goals simp [flip, appR]

theorem appR_flip {st c0 : Nat} : appR .p .tp h st len c0 m (flip s) = flip (appL .q .tq h st len c0 m s) := by
  have := appL_flip (h := h) (st := st) (c0 := c0) (len := len) (m := m) (s := flip s)
  rw [flip_flip] at this
  rw [this, flip_flip]

/-- The lower case is the upper case of the conjugate transpose. -/
theorem kern_flip {sel : Nat → Nat} {b : Blk} : kern sel false n nb b (flip s) = flip (kern sel true n nb b s) := by
  unfold kern
  split_ifs
  · simp only [zgbtype1cb, Bool.false_eq_true, if_false, if_true]
    rw [genCol_flip, appL_flip, genRow_flip, appR_flip]
  · simp only [zgbtype2cb, Bool.false_eq_true, if_false, if_true]
    split_ifs <;> simp only [appR_flip, appL_flip, genCol_flip]
  · simp only [zgbtype3cb, Bool.false_eq_true, if_false, if_true]
    rw [appL_flip, genRow_flip, appR_flip]

theorem Lst_flip {c : Nat} : Lst h c c0 len m s = flip (Rst h c c0 len m (flip s)) := by
  unfold Lst Rst
  rw [genRow_flip, appR_flip, flip_flip]

theorem flip_mat : mat n n (flip s .a) = (mat n n (s .a))ᴴ := by
  ext i j
  rfl

theorem ueq_star {X Y : Matrix (Fin n) (Fin n) 𝕜} (hxy : UEq X Y) : UEq Xᴴ Yᴴ := by
  obtain ⟨Q, hQ, P, hP, rfl⟩ := hxy
  refine ⟨star P, Unitary.star_mem hP, star Q, Unitary.star_mem hQ, ?_⟩
  rw [Matrix.conjTranspose_mul, Matrix.conjTranspose_mul, ← Matrix.mul_assoc]
  rfl

theorem Lst_out {c i j : Nat} (hx : ¬ (c ≤ j ∧ j ≤ c + m ∧ c0 ≤ i ∧ i < c0 + len)) (hlen : 0 < len) :
    Lst h c c0 len m s .a i j = s .a i j := by
  rw [Lst_flip]
  show star (Rst h c c0 len m (flip s) .a j i) = _
  rw [Rst_out hx hlen]
  exact star_star _

theorem Lst_col {c : Nat} (hlen : 0 < len) : star (Lst h c c0 len m s .a c0 c) = Lst h c c0 len m s .a c0 c ∧
    ∀ i, c0 < i → i < c0 + len → Lst h c c0 len m s .a i c = 0 := by
  rw [Lst_flip]
  obtain ⟨h1, h2⟩ := Rst_row (h := h) (r := c) (c0 := c0) (m := m) (s := flip s) hlen
  refine ⟨?_, fun i hi hi' => ?_⟩
  · show star (star (Rst h c c0 len m (flip s) .a c c0)) = star (Rst h c c0 len m (flip s) .a c c0)
    rw [h1, h1]
  · show star (Rst h c c0 len m (flip s) .a c i) = 0
    rw [h2 i hi hi', star_zero]

/-- **A full transformation from the left.** -/
theorem Lst_mat {c : Nat} (hlen : 0 < len) (hc : c0 + len ≤ n)
    (hz : ∀ i j, j < n → ¬ (c ≤ j ∧ j ≤ c + m) → c0 ≤ i → i < c0 + len → s .a i j = 0) :
    Qr.refl n (vecAt .q h c0 len (Lst h c c0 len m s)) (Lst h c c0 len m s .tq h c0) ∈ unitaryGroup (Fin n) 𝕜 ∧
    mat n n (Lst h c c0 len m s .a) =
      (Qr.refl n (vecAt .q h c0 len (Lst h c c0 len m s)) (Lst h c c0 len m s .tq h c0))ᴴ * mat n n (s .a) := by
  obtain ⟨h1, h2⟩ := Rst_mat (n := n) (h := h) (r := c) (c0 := c0) (len := len) (m := m) (s := flip s) hlen hc (by
    intro i j hi him h1 h2
    show star (s .a j i) = 0
    rw [hz j i hi him h1 h2, star_zero])
  rw [Lst_flip, flip_mat, h2, Matrix.conjTranspose_mul, flip_mat, conjTranspose_conjTranspose]
  exact ⟨h1, rfl⟩

theorem Lst_ueq {c : Nat} (hlen : 0 < len) (hc : c0 + len ≤ n)
    (hz : ∀ i j, j < n → ¬ (c ≤ j ∧ j ≤ c + m) → c0 ≤ i → i < c0 + len → s .a i j = 0) :
    UEq (mat n n (s .a)) (mat n n (Lst h c c0 len m s .a)) := by
  obtain ⟨h1, h2⟩ := Lst_mat (h := h) hlen hc hz
  refine UEq.left h1 ?_
  rw [h2, ← Matrix.mul_assoc]
  have e : Qr.refl n (vecAt .q h c0 len (Lst h c c0 len m s)) (Lst h c c0 len m s .tq h c0) *
      (Qr.refl n (vecAt .q h c0 len (Lst h c c0 len m s)) (Lst h c c0 len m s .tq h c0))ᴴ = 1 := mem_unitaryGroup_iff.mp h1
  rw [e, Matrix.one_mul]

/-! ### Transformations applied in two parts -/

theorem appR_add {V T : CM} {st r0 m' : Nat} (hV : V ≠ .a) (hT : T ≠ .a) :
    appR V T h st len (r0 + m) m' (appR V T h st len r0 m s) = appR V T h st len r0 (m + m') s := by
  have e : ∀ x i j, x ≠ CM.a → appR V T h st len r0 m s x i j = s x i j := by
    intro x i j hx
    unfold appR
    rw [if_neg (fun e => hx e.1)]
  have e2 : ∀ i j, ¬ (r0 ≤ i ∧ i < r0 + m) → appR V T h st len r0 m s .a i j = s .a i j := by
    intro i j hx
    unfold appR
    rw [if_neg (fun e => hx ⟨e.2.1, e.2.2.1⟩)]
  funext x i j
  by_cases hx : x = .a
  · subst hx
    by_cases h1 : r0 + m ≤ i ∧ i < r0 + m + m' ∧ st ≤ j ∧ j < st + len
    · rw [show ∀ t : Store CM 𝕜, appR V T h st len (r0 + m) m' t .a i j = _ from fun t => if_pos ⟨rfl, h1⟩,
        show appR V T h st len r0 (m + m') s .a i j = _ from if_pos ⟨rfl, by omega, by omega, h1.2.2⟩,
        e2 i j (by omega), e _ _ _ hV, e _ _ _ hT]
      congr 3
      refine sum_congr rfl fun l hl => ?_
      rw [e2 i _ (by omega), e _ _ _ hV]
    · rw [show ∀ t : Store CM 𝕜, appR V T h st len (r0 + m) m' t .a i j = t .a i j from fun t => if_neg (fun e => h1 e.2)]
      by_cases h2 : r0 ≤ i ∧ i < r0 + m ∧ st ≤ j ∧ j < st + len
      · rw [show appR V T h st len r0 m s .a i j = _ from if_pos ⟨rfl, h2⟩,
          show appR V T h st len r0 (m + m') s .a i j = _ from if_pos ⟨rfl, by omega, by omega, h2.2.2⟩]
      · rw [show appR V T h st len r0 m s .a i j = s .a i j from if_neg (fun e => h2 e.2),
          show appR V T h st len r0 (m + m') s .a i j = s .a i j from if_neg (fun e => by omega)]
  · rw [show ∀ t : Store CM 𝕜, appR V T h st len (r0 + m) m' t x i j = t x i j from fun t => if_neg (fun e => hx e.1), e x i j hx]
    exact (if_neg (fun e => hx e.1)).symm

theorem appL_add {st m' : Nat} :
    appL .q .tq h st len (c0 + m) m' (appL .q .tq h st len c0 m s) = appL .q .tq h st len c0 (m + m') s := by
  obtain ⟨t, rfl⟩ : ∃ t, s = flip t := ⟨flip s, flip_flip.symm⟩
  rw [appL_flip, appL_flip, appL_flip, appR_add (by simp) (by simp)]

end

end Verif.Bulge

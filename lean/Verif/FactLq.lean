/-
The LQ kernels that make the reflectors of a tile pair: core_blas/core_ztslqt.c, core_blas/core_zttlqt.c, statement by
statement.  They are compared with the QR kernels through the conjugate transposes of the tiles.
-/
import Verif.Fact

namespace Verif.Fact

open Verif.Layout Verif.Tile Verif.Qr Verif.Pent Finset Matrix

universe v

set_option linter.unusedSectionVars false

section
variable {𝕜 : Type v} [RCLike 𝕜]

/-! ### The kernels -/

/-- Reflector `j` applied from the right to the next `mi` rows (core_blas/core_ztslqt.c:171-188,
core_blas/core_zttlqt.c:165-188). -/
def applyLq (mi ni j : Nat) (alpha : 𝕜) (A1 A2 : Tl 𝕜) : Tl 𝕜 × Tl 𝕜 :=
  let w : Nat → 𝕜 := copyV mi (fun p => A1 (j + 1 + p) j) (fun _ => 0)
  let w := gemvF .noTrans mi ni 1 (sub (j + 1) 0 A2) (A2 j) 1 w
  let A1 := setCol A1 j (putV (j + 1) (fun r => A1 r j) (axpyV mi alpha w (fun p => A1 (j + 1 + p) j)))
  let A2 := put (j + 1) 0 A2 (gercF mi ni alpha w (A2 j) (sub (j + 1) 0 A2))
  (A1, A2)

/-- Body of the loop over the rows of a block in `plasma_core_ztslqt` (core_blas/core_ztslqt.c:158-209). -/
noncomputable def tslqtCol (m n ii sb i : Nat) (s : FSt 𝕜) : FSt 𝕜 :=
  let j := ii + i
  let A2 := setRow s.A2 j (lacgvF n (s.A2 j))
  let A1 := setAt s.A1 j j (star (s.A1 j j))
  let h := larfg (n + 1) (A1 j j) (A2 j)
  let A1 := setAt A1 j j h.1
  let A2 := setRow A2 j h.2.1
  let tau := h.2.2
  let alpha := -tau
  let a := if ii + i + 1 < m then applyLq (sb - i - 1) n j alpha A1 A2 else (A1, A2)
  let y := gemvF .noTrans i n alpha (sub ii 0 a.2) (a.2 j) 0 (fun p => s.T p j)
  let A2 := setRow a.2 j (lacgvF n (a.2 j))
  let A1 := setAt a.1 j j (star (a.1 j j))
  let y := trmvF .upper .noTrans i (sub 0 ii s.T) y
  ⟨A1, A2, setAt (setCol s.T j y) i j tau⟩

/-- `plasma_core_ztslqt` (core_blas/core_ztslqt.c:96-222), after the checks of the arguments, as `ztsqrt`.  The
workspace of the update has leading dimension `lda1`. -/
noncomputable def ztslqt (m n ib lda1 : Nat) (W A1 A2 T : Tl 𝕜) : Option (FSt 𝕜) :=
  if m = 0 ∨ n = 0 ∨ ib = 0 then some ⟨A1, A2, T⟩
  else
    iter (fun ii s =>
        let sb := min (m - ii) ib
        let s := (List.range sb).foldl (fun s i => tslqtCol m n ii sb i s) s
        if ii + sb < m then
          (ztsmlq .right .conjTrans (m - (ii + sb)) sb (m - (ii + sb)) n ib ib lda1 (sub ii 0 s.A2) (sub 0 ii s.T)
            (sub (ii + sb) ii s.A1, sub (ii + sb) 0 s.A2, W)).map
            fun r => ⟨put (ii + sb) ii s.A1 r.1, put (ii + sb) 0 s.A2 r.2.1, s.T⟩
        else some s)
      (blocks true m ib) ⟨A1, A2, T⟩

open Classical in
/-- Body of the loop over the rows of a block in `plasma_core_zttlqt` (core_blas/core_zttlqt.c:149-217). -/
noncomputable def ttlqtCol (n ii sb i : Nat) (s : FSt 𝕜) : FSt 𝕜 :=
  let j := ii + i
  let mi := sb - i - 1
  let ni := min (j + 1) n
  let A2 := setRow s.A2 j (lacgvF ni (s.A2 j))
  let A1 := setAt s.A1 j j (star (s.A1 j j))
  let h := larfg (ni + 1) (A1 j j) (A2 j)
  let A1 := setAt A1 j j h.1
  let A2 := setRow A2 j h.2.1
  let tau := h.2.2
  let a := if 0 < mi then applyLq mi ni j (-tau) A1 A2 else (A1, A2)
  let T := if 0 < i then
      let l := min i (max 0 (n - ii))
      let y := zpemv .noTrans .rowwise i (min j n) l (-tau) (sub ii 0 a.2) (a.2 j) 0 (fun p => s.T p j) (fun _ => 0)
      let y := trmvF .upper .noTrans i (sub 0 ii s.T) y
      setCol s.T j y
    else s.T
  let A2 := setRow a.2 j (lacgvF ni (a.2 j))
  let A1 := setAt a.1 j j (star (a.1 j j))
  ⟨A1, A2, setAt T i j tau⟩

/-- `plasma_core_zttlqt` (core_blas/core_zttlqt.c:86-236), after the checks of the arguments, as `ztsqrt`. -/
noncomputable def zttlqt (m n ib : Nat) (W A1 A2 T : Tl 𝕜) : Option (FSt 𝕜) :=
  if m = 0 ∨ n = 0 ∨ ib = 0 then some ⟨A1, A2, T⟩
  else
    iter (fun ii s =>
        let sb := min (m - ii) ib
        let s := (List.range sb).foldl (fun s i => ttlqtCol n ii sb i s) s
        if ii + sb < m then
          let mi := m - (ii + sb)
          let ni := min (ii + sb) n
          let l := min sb (max 0 (ni - ii))
          (zparfb .right .noTrans .rowwise mi ib mi ni sb l m (sub (ii + sb) ii s.A1) (sub (ii + sb) 0 s.A2)
            (sub ii 0 s.A2) (sub 0 ii s.T) W).map
            fun r => ⟨put (ii + sb) ii s.A1 r.1, put (ii + sb) 0 s.A2 r.2.1, s.T⟩
        else some s)
      (blocks true m ib) ⟨A1, A2, T⟩

/-! ### Conjugate transposes -/

/-- The conjugate transposes of the tiles. -/
def cs (s : FSt 𝕜) : FSt 𝕜 := ⟨cT s.A1, cT s.A2, s.T⟩

theorem applyLq_1 (mi ni j : Nat) (alpha : 𝕜) (A1 A2 : Tl 𝕜) (r c : Nat) :
    (applyLq mi ni j alpha A1 A2).1 r c = if c = j ∧ j < r ∧ r < j + 1 + mi then
      A1 r j + alpha * (A1 r j + ∑ q ∈ range ni, A2 r q * A2 j q) else A1 r c := by
  unfold applyLq
  dsimp only
  unfold setCol
  by_cases hr : c = j
  · subst hr
    rw [if_pos rfl]
    unfold putV axpyV
    by_cases hc : c < r ∧ r < c + 1 + mi
    · rw [if_pos (by omega), if_pos (by omega), if_pos ⟨rfl, hc⟩, gemvF_n, if_pos (by omega)]
      unfold copyV Pent.sub
      simp only [Nat.zero_add, one_mul]
      rw [if_pos (by omega), show c + 1 + (r - (c + 1)) = r by omega]
      ring
    · rw [if_neg (show ¬ (c = c ∧ c < r ∧ r < c + 1 + mi) by tauto)]
      split_ifs with h1 h2
      · omega
      · dsimp only
        rw [show c + 1 + (r - (c + 1)) = r by omega]
      · rfl
  · rw [if_neg hr, if_neg (by tauto)]

theorem applyLq_2 (mi ni j : Nat) (alpha : 𝕜) (A1 A2 : Tl 𝕜) (r q : Nat) :
    (applyLq mi ni j alpha A1 A2).2 r q = if q < ni ∧ j < r ∧ r < j + 1 + mi then
      A2 r q + alpha * (A1 r j + ∑ q ∈ range ni, A2 r q * A2 j q) * star (A2 j q) else A2 r q := by
  unfold applyLq
  dsimp only
  unfold put gercF
  by_cases hr : j + 1 ≤ r
  · rw [if_pos ⟨hr, Nat.zero_le _⟩, Nat.sub_zero]
    by_cases hc : q < ni ∧ r < j + 1 + mi
    · rw [if_pos (by omega), if_pos (by omega), gemvF_n, if_pos (by omega)]
      unfold copyV Pent.sub
      simp only [Nat.zero_add, one_mul]
      rw [if_pos (by omega), show j + 1 + (r - (j + 1)) = r by omega]
      ring
    · rw [if_neg (by omega), if_neg (by omega)]
      unfold Pent.sub
      rw [show j + 1 + (r - (j + 1)) = r by omega, Nat.zero_add]
  · rw [if_neg (by omega), if_neg (by omega)]

theorem larfg_conj (ni j : Nat) (A1 A2 : Tl 𝕜) :
    (larfg (ni + 1) (star (A1 j j)) (lacgvF ni (A2 j))).1 = (larfg (ni + 1) (cT A1 j j) fun q => cT A2 q j).1 ∧
    (larfg (ni + 1) (star (A1 j j)) (lacgvF ni (A2 j))).2.2 = (larfg (ni + 1) (cT A1 j j) fun q => cT A2 q j).2.2 ∧
    ∀ q, (larfg (ni + 1) (star (A1 j j)) (lacgvF ni (A2 j))).2.1 q =
      if q < ni then (larfg (ni + 1) (cT A1 j j) fun q => cT A2 q j).2.1 q else A2 j q := by
  have e : ∀ q, q < ni → lacgvF ni (A2 j) q = cT A2 q j := fun q hq => if_pos hq
  have ex : (∑ q ∈ range (ni + 1 - 1), ‖lacgvF ni (A2 j) q‖ ^ 2) = ∑ q ∈ range (ni + 1 - 1), ‖cT A2 q j‖ ^ 2 :=
    sum_congr rfl fun q hq => by rw [e q (mem_range.1 hq)]
  refine ⟨?_, ?_, fun q => ?_⟩
  · unfold larfg
    dsimp only
    rw [ex]
    rfl
  · unfold larfg
    dsimp only
    rw [ex]
    rfl
  · unfold larfg
    dsimp only
    rw [ex, Nat.add_sub_cancel]
    split_ifs with hq
    · rw [e q hq]; rfl
    · exact if_neg hq

/-- Rows of the LQ kernels: the arrays after reflector `j` is made and applied, before the conjugations are undone. -/
noncomputable def lqA (mi ni j : Nat) (A1 A2 : Tl 𝕜) : Tl 𝕜 × Tl 𝕜 :=
  let h := larfg (ni + 1) (star (A1 j j)) (lacgvF ni (A2 j))
  applyLq mi ni j (-h.2.2) (setAt A1 j j h.1) (setRow A2 j h.2.1)

theorem lqA_1 (mi ni j : Nat) (A1 A2 : Tl 𝕜) (r c : Nat) :
    cT (setAt (lqA mi ni j A1 A2).1 j j (star ((lqA mi ni j A1 A2).1 j j))) r c =
      (applyQr ni mi j (larfg (ni + 1) (cT A1 j j) fun q => cT A2 q j).2.2
        (setAt (cT A1) j j (larfg (ni + 1) (cT A1 j j) fun q => cT A2 q j).1)
        (setCol (cT A2) j (larfg (ni + 1) (cT A1 j j) fun q => cT A2 q j).2.1)).1 r c := by
  obtain ⟨e1, e2, e3⟩ := larfg_conj ni j A1 A2
  set H := larfg (ni + 1) (cT A1 j j) fun q => cT A2 q j
  rw [applyQr_1]
  unfold lqA
  dsimp only
  show star (setAt _ j j _ c r) = _
  rw [e1, e2]
  unfold setAt
  by_cases hd : c = j ∧ r = j
  · rw [if_pos hd, star_star, applyLq_1, if_neg (by omega), if_pos ⟨rfl, rfl⟩, if_neg (by omega), if_pos ⟨hd.2, hd.1⟩]
  · rw [if_neg hd, applyLq_1]
    by_cases hc : r = j ∧ j < c ∧ c < j + 1 + mi
    · rw [if_pos hc, if_pos hc, if_neg (by omega), if_neg (by omega), star_add, star_mul', star_neg, star_add, star_sum]
      have : ∀ q ∈ range ni, star (setRow A2 j (larfg (ni + 1) (star (A1 j j)) (lacgvF ni (A2 j))).2.1 c q *
          setRow A2 j (larfg (ni + 1) (star (A1 j j)) (lacgvF ni (A2 j))).2.1 j q) =
          star (setCol (cT A2) j H.2.1 q j) * setCol (cT A2) j H.2.1 q c := by
        intro q hq
        unfold setRow setCol
        rw [if_neg (by omega), if_pos rfl, if_pos rfl, if_neg (by omega), e3, if_pos (mem_range.1 hq), star_mul']
        show star (A2 c q) * _ = _ * star (A2 c q)
        ring
      rw [sum_congr rfl this]
      show star (A1 c j) + -star H.2.2 * (star (A1 c j) + _) = star (A1 c j) - star H.2.2 * (star (A1 c j) + _)
      ring
    · rw [if_neg hc, if_neg (by tauto), if_neg (by tauto), if_neg (by tauto)]
      rfl

theorem lqA_row (mi ni j : Nat) (A1 A2 : Tl 𝕜) : (lqA mi ni j A1 A2).2 j =
    (larfg (ni + 1) (star (A1 j j)) (lacgvF ni (A2 j))).2.1 := by
  funext q
  unfold lqA
  dsimp only
  rw [applyLq_2, if_neg (by omega)]
  exact if_pos rfl

theorem lqA_2 (mi ni j : Nat) (A1 A2 : Tl 𝕜) (q c : Nat) :
    cT (setRow (lqA mi ni j A1 A2).2 j (lacgvF ni ((lqA mi ni j A1 A2).2 j))) q c =
      (applyQr ni mi j (larfg (ni + 1) (cT A1 j j) fun q => cT A2 q j).2.2
        (setAt (cT A1) j j (larfg (ni + 1) (cT A1 j j) fun q => cT A2 q j).1)
        (setCol (cT A2) j (larfg (ni + 1) (cT A1 j j) fun q => cT A2 q j).2.1)).2 q c := by
  obtain ⟨e1, e2, e3⟩ := larfg_conj ni j A1 A2
  set H := larfg (ni + 1) (cT A1 j j) fun q => cT A2 q j with hH
  rw [applyQr_2, lqA_row]
  show star (setRow _ j _ c q) = _
  by_cases hcj : c = j
  · rw [if_neg (by omega)]
    unfold setRow setCol
    rw [if_pos hcj, if_pos hcj]
    unfold lacgvF
    by_cases hq : q < ni
    · rw [if_pos hq, star_star]
      refine (e3 q).trans (if_pos hq)
    · rw [if_neg hq]
      refine (congrArg star ((e3 q).trans (if_neg hq))).trans ?_
      rw [hH]
      unfold larfg
      exact (if_neg (by omega)).symm
  · unfold setRow
    rw [if_neg hcj]
    unfold lqA
    dsimp only
    rw [applyLq_2]
    by_cases hc : q < ni ∧ j < c ∧ c < j + 1 + mi
    · rw [if_pos hc, if_pos hc, e2]
      unfold setRow setCol setAt
      simp only [if_neg hcj, if_true]
      rw [if_neg (by omega), if_neg (by omega), star_add, star_mul', star_star, star_mul', star_neg, star_add, star_sum]
      have : ∀ q ∈ range ni, star (A2 c q * (larfg (ni + 1) (star (A1 j j)) (lacgvF ni (A2 j))).2.1 q) =
          star (H.2.1 q) * cT A2 q c := by
        intro q hq
        rw [e3, if_pos (mem_range.1 hq), star_mul']
        show star (A2 c q) * _ = _ * star (A2 c q)
        ring
      rw [sum_congr rfl this, e3, if_pos hc.1]
      show star (A2 c q) + -star H.2.2 * (star (A1 c j) + _) * _ = star (A2 c q) - _ * (star H.2.2 * (star (A1 c j) + _))
      ring
    · rw [if_neg hc, if_neg hc]
      unfold setRow setCol
      rw [if_neg hcj, if_neg hcj]
      rfl

/-- Setting an element or a row twice. -/
theorem setAt_setAt (A : Tl 𝕜) (r c : Nat) (x y : 𝕜) : setAt (setAt A r c x) r c y = setAt A r c y := by
  funext i j
  unfold setAt
  split_ifs <;> rfl

theorem setRow_setRow (A : Tl 𝕜) (r : Nat) (x y : Nat → 𝕜) : setRow (setRow A r x) r y = setRow A r y := by
  funext i j
  unfold setRow
  split_ifs <;> rfl

theorem applyLq_off (mi ni j : Nat) (alpha : 𝕜) (A1 A2 : Tl 𝕜) (h : mi = 0) : applyLq mi ni j alpha A1 A2 = (A1, A2) := by
  refine Prod.ext (funext fun r => funext fun c => ?_) (funext fun q => funext fun c => ?_)
  · rw [applyLq_1, if_neg (by omega)]
  · rw [applyLq_2, if_neg (by omega)]

theorem tslqtCol_eq (m n ii sb i : Nat) (hsb' : sb = min (m - ii) ib) (s : FSt 𝕜) :
    tslqtCol m n ii sb i s =
      ⟨setAt (lqA (sb - i - 1) n (ii + i) s.A1 s.A2).1 (ii + i) (ii + i)
          (star ((lqA (sb - i - 1) n (ii + i) s.A1 s.A2).1 (ii + i) (ii + i))),
        setRow (lqA (sb - i - 1) n (ii + i) s.A1 s.A2).2 (ii + i) (lacgvF n ((lqA (sb - i - 1) n (ii + i) s.A1 s.A2).2 (ii + i))),
        setAt (setCol s.T (ii + i) (trmvF .upper .noTrans i (sub 0 ii s.T)
          (gemvF .noTrans i n (-(larfg (n + 1) (star (s.A1 (ii + i) (ii + i))) (lacgvF n (s.A2 (ii + i)))).2.2)
            (sub ii 0 (lqA (sb - i - 1) n (ii + i) s.A1 s.A2).2) ((lqA (sb - i - 1) n (ii + i) s.A1 s.A2).2 (ii + i)) 0
            (fun p => s.T p (ii + i))))) i (ii + i)
          (larfg (n + 1) (star (s.A1 (ii + i) (ii + i))) (lacgvF n (s.A2 (ii + i)))).2.2⟩ := by
  unfold tslqtCol
  dsimp only
  have e1 : setAt s.A1 (ii + i) (ii + i) (star (s.A1 (ii + i) (ii + i))) (ii + i) (ii + i) = star (s.A1 (ii + i) (ii + i)) :=
    if_pos ⟨rfl, rfl⟩
  have e2 : setRow s.A2 (ii + i) (lacgvF n (s.A2 (ii + i))) (ii + i) = lacgvF n (s.A2 (ii + i)) := by
    funext q; exact if_pos rfl
  rw [e1, e2, setAt_setAt, setRow_setRow]
  have ea : ∀ (al : 𝕜) (A1 A2 : Tl 𝕜), ((if ii + i + 1 < m then applyLq (sb - i - 1) n (ii + i) al A1 A2 else (A1, A2)) : Tl 𝕜 × Tl 𝕜) =
      applyLq (sb - i - 1) n (ii + i) al A1 A2 := by
    intro al A1 A2
    split_ifs with hc
    · rfl
    · rw [applyLq_off _ _ _ _ _ _ (by omega)]
  rw [ea]
  rfl

open Classical in
theorem ttlqtCol_eq (n ii sb i : Nat) (s : FSt 𝕜) :
    ttlqtCol n ii sb i s =
      ⟨setAt (lqA (sb - i - 1) (min (ii + i + 1) n) (ii + i) s.A1 s.A2).1 (ii + i) (ii + i)
          (star ((lqA (sb - i - 1) (min (ii + i + 1) n) (ii + i) s.A1 s.A2).1 (ii + i) (ii + i))),
        setRow (lqA (sb - i - 1) (min (ii + i + 1) n) (ii + i) s.A1 s.A2).2 (ii + i)
          (lacgvF (min (ii + i + 1) n) ((lqA (sb - i - 1) (min (ii + i + 1) n) (ii + i) s.A1 s.A2).2 (ii + i))),
        setAt (if 0 < i then setCol s.T (ii + i) (trmvF .upper .noTrans i (sub 0 ii s.T)
          (zpemv .noTrans .rowwise i (min (ii + i) n) (min i (max 0 (n - ii)))
            (-(larfg (min (ii + i + 1) n + 1) (star (s.A1 (ii + i) (ii + i))) (lacgvF (min (ii + i + 1) n) (s.A2 (ii + i)))).2.2)
            (sub ii 0 (lqA (sb - i - 1) (min (ii + i + 1) n) (ii + i) s.A1 s.A2).2)
            ((lqA (sb - i - 1) (min (ii + i + 1) n) (ii + i) s.A1 s.A2).2 (ii + i)) 0
            (fun p => s.T p (ii + i)) (fun _ => 0))) else s.T) i (ii + i)
          (larfg (min (ii + i + 1) n + 1) (star (s.A1 (ii + i) (ii + i))) (lacgvF (min (ii + i + 1) n) (s.A2 (ii + i)))).2.2⟩ := by
  unfold ttlqtCol
  dsimp only
  have e1 : setAt s.A1 (ii + i) (ii + i) (star (s.A1 (ii + i) (ii + i))) (ii + i) (ii + i) = star (s.A1 (ii + i) (ii + i)) :=
    if_pos ⟨rfl, rfl⟩
  have e2 : setRow s.A2 (ii + i) (lacgvF (min (ii + i + 1) n) (s.A2 (ii + i))) (ii + i) = lacgvF (min (ii + i + 1) n) (s.A2 (ii + i)) := by
    funext q; exact if_pos rfl
  rw [e1, e2, setAt_setAt, setRow_setRow]
  have ea : ∀ (al : 𝕜) (A1 A2 : Tl 𝕜), ((if 0 < sb - i - 1 then applyLq (sb - i - 1) (min (ii + i + 1) n) (ii + i) al A1 A2 else (A1, A2)) : Tl 𝕜 × Tl 𝕜) =
      applyLq (sb - i - 1) (min (ii + i + 1) n) (ii + i) al A1 A2 := by
    intro al A1 A2
    split_ifs with hc
    · rfl
    · rw [applyLq_off _ _ _ _ _ _ (by omega)]
  rw [ea]
  rfl

theorem tslqtCol_step (m n ii i sb : Nat) (hsb' : sb = min (m - ii) ib) (s : FSt 𝕜) :
    ∃ y, ColStep false n ii i (sb - i - 1) (cs s) (cs (tslqtCol m n ii sb i s)) y ∧
      ColZ false n ii i (cs s) (cs (tslqtCol m n ii sb i s)) y := by
  rw [tslqtCol_eq m n ii sb i hsb' s]
  obtain ⟨-, e2, -⟩ := larfg_conj n (ii + i) s.A1 s.A2
  refine ⟨gemvF .noTrans i n (-(larfg (n + 1) (star (s.A1 (ii + i) (ii + i))) (lacgvF n (s.A2 (ii + i)))).2.2)
            (sub ii 0 (lqA (sb - i - 1) n (ii + i) s.A1 s.A2).2) ((lqA (sb - i - 1) n (ii + i) s.A1 s.A2).2 (ii + i)) 0
            (fun p => s.T p (ii + i)),
    ⟨lqA_1 (sb - i - 1) n (ii + i) s.A1 s.A2, lqA_2 (sb - i - 1) n (ii + i) s.A1 s.A2, fun l c => ?_⟩,
    ⟨fun h => absurd h.1 (by decide), fun _ => ?_⟩⟩
  · refine (colT_at ii i s.T _ _ (fun l hl => by rw [gemvF_n, if_neg hl]) l c).trans ?_
    rw [e2]
    rfl
  · intro p hp
    rw [gemvF_n, if_pos hp, zero_mul, add_zero, e2]
    refine congrArg₂ (· * ·) rfl (sum_congr rfl fun q hq => ?_)
    have hq : q < n := mem_range.1 hq
    show (lqA (sb - i - 1) n (ii + i) s.A1 s.A2).2 (ii + p) (0 + q) * _ = star (star (setRow _ _ _ (ii + p) q)) * star (setRow _ _ _ (ii + i) q)
    unfold setRow
    rw [if_neg (by omega), if_pos rfl, star_star, Nat.zero_add]
    unfold lacgvF
    rw [if_pos hq, star_star]

theorem ttlqtCol_step {n : Nat} (hn : 0 < n) (ii i sb : Nat) (s : FSt 𝕜) :
    ∃ y, ColStep true n ii i (sb - i - 1) (cs s) (cs (ttlqtCol n ii sb i s)) y ∧
      ColZ true n ii i (cs s) (cs (ttlqtCol n ii sb i s)) y := by
  classical
  rw [ttlqtCol_eq n ii sb i s]
  obtain ⟨-, e2, -⟩ := larfg_conj (min (ii + i + 1) n) (ii + i) s.A1 s.A2
  set ni := min (ii + i + 1) n with hni
  set y : Nat → 𝕜 := fun p => if 0 < i then zpemv .noTrans .rowwise i (min (ii + i) n) (min i (max 0 (n - ii)))
    (-(larfg (ni + 1) (star (s.A1 (ii + i) (ii + i))) (lacgvF ni (s.A2 (ii + i)))).2.2)
    (sub ii 0 (lqA (sb - i - 1) ni (ii + i) s.A1 s.A2).2) ((lqA (sb - i - 1) ni (ii + i) s.A1 s.A2).2 (ii + i)) 0
    (fun p => s.T p (ii + i)) (fun _ => 0) p else s.T p (ii + i) with hy
  refine ⟨y, ⟨lqA_1 (sb - i - 1) ni (ii + i) s.A1 s.A2, lqA_2 (sb - i - 1) ni (ii + i) s.A1 s.A2, fun l c => ?_⟩, ?_⟩
  · show setAt _ i (ii + i) _ l c = _
    by_cases hi0 : 0 < i
    · have e : y = zpemv .noTrans .rowwise i (min (ii + i) n) (min i (max 0 (n - ii)))
          (-(larfg (ni + 1) (star (s.A1 (ii + i) (ii + i))) (lacgvF ni (s.A2 (ii + i)))).2.2)
          (sub ii 0 (lqA (sb - i - 1) ni (ii + i) s.A1 s.A2).2) ((lqA (sb - i - 1) ni (ii + i) s.A1 s.A2).2 (ii + i)) 0
          (fun p => s.T p (ii + i)) (fun _ => 0) := by
        funext p
        rw [hy]
        dsimp only
        rw [if_pos hi0]
      rw [if_pos hi0, ← e]
      refine (colT_at ii i s.T _ _ (fun l hl => by rw [e, zpemv_out_row _ _ _ (by omega) _ _ _ _ _ _ hl]) l c).trans ?_
      rw [e2]
      rfl
    · rw [if_neg hi0, e2]
      unfold setAt
      rw [if_neg (show ¬ (c = ii + i ∧ l < i) by omega)]
      refine if_congr and_comm ?_ rfl
      rfl
  · refine ⟨fun ht p hp => ?_, fun ht p hp => ?_⟩
    · have ht : (larfg (ni + 1) (cT s.A1 (ii + i) (ii + i)) fun q => cT s.A2 q (ii + i)).2.2 = 0 := ht.2
      rw [hy]
      dsimp only
      rw [if_pos (by omega), e2, ht, neg_zero, zpemv_zero]
      rfl
    · have ht : ¬ (larfg (ni + 1) (cT s.A1 (ii + i) (ii + i)) fun q => cT s.A2 q (ii + i)).2.2 = 0 := fun h => ht ⟨rfl, h⟩
      rw [hy]
      dsimp only
      rw [if_pos (by omega), e2, zpemv_row (by omega) (by omega) (by omega) (fun hh => ht (neg_eq_zero.1 hh.1)) _ _ _ _ hp, zero_mul, add_zero]
      refine congrArg₂ (· * ·) rfl ((sum_pemv .rowwise hp (lqA (sb - i - 1) ni (ii + i) s.A1 s.A2).2 _).trans
        (sum_congr rfl fun q hq => ?_))
      have hq : q < min (ii + p + 1) n := mem_range.1 hq
      show star (star ((lqA ..).2 (ii + p) q)) * _ = star (star (setRow _ _ _ (ii + p) q)) * star (setRow _ _ _ (ii + i) q)
      unfold setRow
      rw [if_neg (by omega), if_pos rfl]
      unfold lacgvF
      rw [if_pos (by omega), star_star (R := 𝕜) ((lqA (sb - i - 1) ni (ii + i) s.A1 s.A2).2 (ii + i) q)]

/-! ### The rows behind a block -/

theorem parfb_right_blk (tri : Bool) {n m ii kb n1 ldw : Nat} (hm : 0 < m) (hkb : 0 < kb) (hn : ii + kb < n) (hn1 : 0 < n1)
    (hld : n - (ii + kb) ≤ ldw) (A1 A2 T W : Tl 𝕜) :
    ∃ r, zparfb .right .noTrans .rowwise (n - (ii + kb)) n1 (n - (ii + kb)) (rows2 tri ii kb m) kb (ltri tri ii kb m) ldw
        (sub (ii + kb) ii A1) (sub (ii + kb) 0 A2) (sub ii 0 A2) (sub 0 ii T) W = some r ∧
      (∀ r' c, c < n → cT (put (ii + kb) ii A1 r.1) r' c = if (ii ≤ r' ∧ r' < ii + kb) ∧ ii + kb ≤ c then
        cT A1 r' c - wB tri m ii kb (cT A1) (cT A2) T (r' - ii) c else cT A1 r' c) ∧
      (∀ q c, q < m → c < n → cT (put (ii + kb) 0 A2 r.2.1) q c = if ii + kb ≤ c then
        cT A2 q c - ∑ p ∈ range kb, Pent.vt tri (cT A2) q (ii + p) * wB tri m ii kb (cT A1) (cT A2) T p c else cT A2 q c) := by
  obtain ⟨r, hr, h1, h2⟩ := zparfb_right (.noTrans) .rowwise (ldw := ldw) (show 0 < n - (ii + kb) by omega) hn1
    (n2 := rows2 tri ii kb m) (l := ltri tri ii kb m) (by unfold rows2; split <;> omega) hkb
    (by unfold ltri; split <;> omega) (by unfold ltri rows2; split <;> omega) hld
    (sub (ii + kb) ii A1) (sub (ii + kb) 0 A2) (sub ii 0 A2) (sub 0 ii T) W
  have hw : ∀ p c, ii + kb ≤ c → star (wR .noTrans .rowwise (rows2 tri ii kb m) kb (ltri tri ii kb m) (sub (ii + kb) ii A1)
      (sub (ii + kb) 0 A2) (sub ii 0 A2) (sub 0 ii T) (c - (ii + kb)) p) = wB tri m ii kb (cT A1) (cT A2) T p c := by
    intro p c hc
    unfold wR wB
    rw [star_sum]
    refine sum_congr rfl fun p' hp' => ?_
    rw [star_mul', mul_comm]
    congr 1
    rw [star_add]
    congr 1
    · unfold Pent.sub; rw [show ii + kb + (c - (ii + kb)) = c by omega]; rfl
    · rw [star_sum]
      refine Eq.trans ?_ (sum_rows2 tri .rowwise ii kb m A2 (mem_range.1 hp') (fun q x => star x * cT A2 q c)
        (fun q => by rw [star_zero, zero_mul]))
      refine sum_congr rfl fun q _ => ?_
      rw [star_mul', mul_comm]
      congr 1
      unfold Pent.sub
      rw [Nat.zero_add, show ii + kb + (c - (ii + kb)) = c by omega]
      rfl
  refine ⟨r, hr, ?_, ?_⟩
  · intro r' c hc
    show star (put _ _ _ _ c r') = _
    unfold put
    by_cases hcc : ii ≤ r' ∧ ii + kb ≤ c
    · rw [if_pos hcc.symm, h1, sub_at _ hcc.2 hcc.1]
      by_cases hr' : r' < ii + kb
      · rw [if_pos (by omega), if_pos (by omega), star_sub, hw _ _ hcc.2]
        rfl
      · rw [if_neg (by omega), if_neg (by omega)]
        rfl
    · rw [if_neg (by omega), if_neg (by omega)]
      rfl
  · intro q c hq hc
    show star (put _ _ _ _ c q) = _
    unfold put
    by_cases hcc : ii + kb ≤ c
    · rw [if_pos ⟨hcc, Nat.zero_le _⟩, if_pos hcc, h2, sub_at _ hcc (Nat.zero_le _), Nat.sub_zero]
      by_cases hq2 : q < rows2 tri ii kb m
      · rw [if_pos ⟨by omega, hq2⟩, star_sub, star_sum]
        refine congrArg₂ (· - ·) rfl (sum_congr rfl fun p hp => ?_)
        rw [star_mul', star_star, hw _ _ hcc, mul_comm]
        congr 1
        exact pent_vt tri .rowwise ii kb m A2 (mem_range.1 hp) hq2
      · rw [if_neg (by omega), Finset.sum_eq_zero, sub_zero]
        · rfl
        · intro p hp
          rw [vt_out tri _ (mem_range.1 hp) hq2 hq, zero_mul]
    · rw [if_neg (by omega), if_neg hcc]
      rfl

/-- Only one block: `plasma_core_ztsmlq` with `k = ib`. -/
theorem ztsmlq_one {m n1 n2 ib ldw : Nat} (hm : 0 < m) (hn1 : 0 < n1) (hn2 : 0 < n2) (hib : 0 < ib) (V T : Tl 𝕜) (s : St 𝕜) :
    ztsmlq .right .conjTrans m n1 m n2 ib ib ldw V T s =
      zparfb .right .noTrans .rowwise m n1 m n2 ib 0 ldw s.1 s.2.1 V T s.2.2 := by
  have e : ∀ A : Tl 𝕜, sub 0 0 A = A := fun A => by funext i j; unfold Pent.sub; rw [Nat.zero_add, Nat.zero_add]
  have e' : ∀ A B : Tl 𝕜, put 0 0 A B = B := fun A B => by
    funext i j; unfold put; rw [if_pos ⟨Nat.zero_le _, Nat.zero_le _⟩, Nat.sub_zero, Nat.sub_zero]
  unfold ztsmlq
  rw [if_neg (by omega)]
  have hc : ceilDiv ib ib = 1 := by
    unfold ceilDiv
    rw [show ib + ib - 1 = (ib - 1) + ib by omega, Nat.add_div_right _ hib, Nat.div_eq_of_lt (by omega)]
  rw [show (decide ((Side.right = .left ∧ Trans.conjTrans = .noTrans) ∨ (Side.right = .right ∧ Trans.conjTrans ≠ .noTrans))) = true
    by decide, blocks_eq hib hib, if_pos rfl, hc]
  simp only [List.range_one, List.map_cons, List.map_nil, Nat.zero_mul, iter, reduceCtorEq, if_false, Nat.sub_zero, min_self, e, e']
  cases h : zparfb Side.right Trans.noTrans Storev.rowwise m n1 m n2 ib 0 ldw s.1 s.2.1 V T s.2.2 <;> simp

theorem tslqt_scheme {m n ib lda1 : Nat} (hm : 0 < m) (hn : 0 < n) (hib : 0 < ib) (hld : m ≤ lda1) (W : Tl 𝕜) :
    ∃ F, (∀ A1 A2 T, ztslqt m n ib lda1 W A1 A2 T = iter F ((List.range (ceilDiv m ib)).map (· * ib)) ⟨A1, A2, T⟩) ∧
      Scheme false m n ib cs (fun ii sb i s => tslqtCol m n ii sb i s) F := by
  apply Exists.intro
  apply And.intro
  · intro A1 A2 T
    unfold ztslqt
    rw [if_neg (by omega), blocks_eq hm hib, if_pos rfl]
  refine ⟨?_, ?_⟩
  · intro ii i sb s hsb hi
    exact tslqtCol_step m n ii i sb hsb s
  · intro b s hbn
    have htd : min (m - b * ib) ib = tdim m ib b := by unfold tdim; omega
    have htl : tdim m ib b ≤ ib ∧ b * ib + tdim m ib b ≤ m ∧ 0 < tdim m ib b := by unfold tdim; omega
    dsimp only
    rw [htd]
    set s1 := (List.range (tdim m ib b)).foldl (fun s i => tslqtCol m n (b * ib) (tdim m ib b) i s) s
    by_cases hlt : b * ib + tdim m ib b < m
    · rw [if_pos hlt]
      have hkb : tdim m ib b = ib := by unfold tdim at *; omega
      obtain ⟨r, hr, g1, g2⟩ := parfb_right_blk false (n1 := tdim m ib b) (ldw := lda1) hn htl.2.2 hlt htl.2.2 (by omega)
        s1.A1 s1.A2 s1.T W
      have e2 := ztsmlq_one (m := m - (b * ib + tdim m ib b)) (n1 := tdim m ib b) (n2 := n) (ib := ib) (ldw := lda1)
        (by omega) htl.2.2 hn hib (sub (b * ib) 0 s1.A2) (sub 0 (b * ib) s1.T)
        (sub (b * ib + tdim m ib b) (b * ib) s1.A1, sub (b * ib + tdim m ib b) 0 s1.A2, W)
      rw [e2]
      have e3 : zparfb .right .noTrans .rowwise (m - (b * ib + tdim m ib b)) (tdim m ib b) (m - (b * ib + tdim m ib b)) n ib 0
          lda1 (sub (b * ib + tdim m ib b) (b * ib) s1.A1) (sub (b * ib + tdim m ib b) 0 s1.A2) (sub (b * ib) 0 s1.A2)
          (sub 0 (b * ib) s1.T) W = some r := by
        rw [← hr]
        unfold rows2 ltri
        simp only [Bool.false_eq_true, if_false, hkb]
      dsimp only
      rw [e3]
      exact ⟨_, rfl, rfl, g1, g2⟩
    · rw [if_neg hlt]
      refine ⟨_, rfl, rfl, (fun r c hc => ?_), fun q c hq hc => ?_⟩
      · rw [if_neg (by omega)]
      · rw [if_neg (by omega)]

theorem tslqt_rel {m n ib lda1 : Nat} (hm : 0 < m) (hn : 0 < n) (hib : 0 < ib) (hld : m ≤ lda1) (W A1 A2 T T1 : Tl 𝕜) :
    ∃ s, ztslqt m n ib lda1 W A1 A2 T = some s ∧ Fr false m n ib (cs ⟨A1, A2, T⟩) (cs s) ∧
      Rel false m n ib m T (cs s) (hqr (m + n) m m ib (sup2 false m n) ⟨x2 false n m (cT A1) (cT A2), T1⟩) := by
  obtain ⟨F, hF, hS⟩ := tslqt_scheme hm hn hib hld W
  rw [hF]
  exact (assemble hib hS ⟨A1, A2, T⟩ T1).imp fun s hs => ⟨hs.1, hs.2.1, hs.2.2 (fun h => absurd h (by decide))⟩

theorem ttlqt_scheme {m n ib : Nat} (hm : 0 < m) (hn : 0 < n) (hib : 0 < ib) (W : Tl 𝕜) :
    ∃ F, (∀ A1 A2 T, zttlqt m n ib W A1 A2 T = iter F ((List.range (ceilDiv m ib)).map (· * ib)) ⟨A1, A2, T⟩) ∧
      Scheme true m n ib cs (fun ii sb i s => ttlqtCol n ii sb i s) F := by
  apply Exists.intro
  apply And.intro
  · intro A1 A2 T
    unfold zttlqt
    rw [if_neg (by omega), blocks_eq hm hib, if_pos rfl]
  refine ⟨?_, ?_⟩
  · intro ii i sb s hsb hi
    exact ttlqtCol_step hn ii i sb s
  · intro b s hbn
    have htd : min (m - b * ib) ib = tdim m ib b := by unfold tdim; omega
    have htl : tdim m ib b ≤ ib ∧ b * ib + tdim m ib b ≤ m ∧ 0 < tdim m ib b := by unfold tdim; omega
    dsimp only
    rw [htd]
    set s1 := (List.range (tdim m ib b)).foldl (fun s i => ttlqtCol n (b * ib) (tdim m ib b) i s) s
    by_cases hlt : b * ib + tdim m ib b < m
    · rw [if_pos hlt]
      obtain ⟨r, hr, g1, g2⟩ := parfb_right_blk true (n1 := ib) (ldw := m) hn htl.2.2 hlt hib (by omega)
        s1.A1 s1.A2 s1.T W
      have e3 : zparfb .right .noTrans .rowwise (m - (b * ib + tdim m ib b)) ib (m - (b * ib + tdim m ib b))
          (min (b * ib + tdim m ib b) n) (tdim m ib b) (min (tdim m ib b) (max 0 (min (b * ib + tdim m ib b) n - b * ib)))
          m (sub (b * ib + tdim m ib b) (b * ib) s1.A1) (sub (b * ib + tdim m ib b) 0 s1.A2) (sub (b * ib) 0 s1.A2)
          (sub 0 (b * ib) s1.T) W = some r := by
        rw [← hr]
        unfold rows2 ltri
        simp only [if_true]
        congr 1
        omega
      rw [e3]
      exact ⟨_, rfl, rfl, g1, g2⟩
    · rw [if_neg hlt]
      refine ⟨_, rfl, rfl, (fun r c hc => ?_), fun q c hq hc => ?_⟩
      · rw [if_neg (by omega)]
      · rw [if_neg (by omega)]

theorem ttlqt_rel {m n ib : Nat} (hm : 0 < m) (hn : 0 < n) (hib : 0 < ib) (W A1 A2 T T1 : Tl 𝕜) :
    ∃ s, zttlqt m n ib W A1 A2 T = some s ∧ Fr true m n ib (cs ⟨A1, A2, T⟩) (cs s) ∧
      ((∀ j, j < m → 0 < j % ib →
        (hqr (m + n) m m ib (sup2 true m n) ⟨x2 true n m (cT A1) (cT A2), T1⟩).T (j % ib) j ≠ 0 ∨
        ∀ l, l < j % ib → T l j = 0) →
      Rel true m n ib m T (cs s) (hqr (m + n) m m ib (sup2 true m n) ⟨x2 true n m (cT A1) (cT A2), T1⟩)) := by
  obtain ⟨F, hF, hS⟩ := ttlqt_scheme hm hn hib W
  rw [hF]
  exact (assemble hib hS ⟨A1, A2, T⟩ T1).imp fun s hs => ⟨hs.1, hs.2.1, fun hz => hs.2.2 fun _ => hz⟩

end

end Verif.Fact

/-
What the kernels for two triangles do with the contents of `T` before the call: a case in which they are used.
-/
import Verif.LKern

namespace Verif.Fact

open Verif.Layout Verif.Tile Verif.Qr Verif.Pent Finset Matrix

universe v

section
variable {𝕜 : Type v} [RCLike 𝕜]

/-- `tau` of a vector that has something to be annihilated. -/
theorem ltau_one_ne : ltau (1 : 𝕜) 1 ≠ 0 := by
  have h : ¬ ((1 : ℝ) = 0 ∧ RCLike.im (1 : 𝕜) = 0) := fun h => one_ne_zero h.1
  unfold ltau
  rw [if_neg h]
  refine div_ne_zero ?_ (by exact_mod_cast lbeta_ne zero_le_one h)
  intro e
  exact lsub_ne zero_le_one h (by rw [← neg_sub, e, neg_zero])

theorem larfg_zero {k : Nat} {a : 𝕜} {x : Nat → 𝕜} (ha : RCLike.im a = 0) (hx : ∀ q, q < k - 1 → x q = 0) :
    (larfg k a x).1 = a ∧ (∀ q, (larfg k a x).2.1 q = x q) ∧ (larfg k a x).2.2 = 0 := by
  have e : (∑ q ∈ range (k - 1), ‖x q‖ ^ 2 : ℝ) = 0 := sum_eq_zero fun q hq => by
    rw [hx q (mem_range.1 hq), norm_zero]; norm_num
  unfold larfg
  dsimp only
  rw [e]
  refine ⟨?_, fun q => ?_, ?_⟩
  · unfold lbet; rw [if_pos ⟨rfl, ha⟩]
  · split_ifs with h
    · rw [hx q h, zero_mul]
    · rfl
  · unfold ltau; rw [if_pos ⟨rfl, ha⟩]

/-- The operands: the identity with one more element on top of a tile with a single one.  Only the parts in use count. -/
structure Wit (s : FSt 𝕜) : Prop where
  a00 : s.A1 0 0 = 1
  a01 : s.A1 0 1 = 0
  a02 : s.A1 0 2 = 1
  a11 : s.A1 1 1 = 1
  a12 : s.A1 1 2 = 0
  b00 : s.A2 0 0 = 1
  b01 : s.A2 0 1 = 0
  b11 : s.A2 1 1 = 0
  b2 : ∀ q, q < 3 → s.A2 q 2 = 0

/-- Two columns of one block, then the update of the third column, then the third column. -/
theorem stale_core {g : FSt 𝕜 → FSt 𝕜} {col : Nat → Nat → Nat → FSt 𝕜 → FSt 𝕜} {F : Nat → FSt 𝕜 → Option (FSt 𝕜)}
    (hS : Scheme true 3 3 2 g col F) {s0 : FSt 𝕜} (h : Wit (g s0)) :
    ∃ s, iter F ((List.range (ceilDiv 3 2)).map (· * 2)) s0 = some s ∧ (g s).A1 0 1 = 0 ∧ (g s).A1 1 1 = 1 ∧
      (g s).A1 1 2 = -star (ltau (1 : 𝕜) 1 * (g s0).T 0 1) ∧ (g s).T 0 1 = ltau 1 1 * (g s0).T 0 1 ∧ (g s).T 0 0 = ltau 1 1 ∧
      (g s).T 1 1 = 0 := by
  -- first column
  obtain ⟨y0, c0, z0⟩ := hS.hcol 0 0 2 s0 (by decide) (by omega)
  set s1 := col 0 2 0 s0 with hs1
  have hr0 : rowsV true 3 (0 + 0) = 1 := by decide
  have hr1 : rowsV true 3 (0 + 1) = 2 := by decide
  have hl0 : (larfg (rowsV true 3 (0 + 0) + 1) ((g s0).A1 (0 + 0) (0 + 0)) fun q => (g s0).A2 q (0 + 0)).2.2 = ltau (1 : 𝕜) 1 := by
    rw [hr0]
    unfold larfg
    dsimp only
    rw [sum_range_one, h.a00, h.b00, norm_one, one_pow]
  have t00 : (g s1).T 0 0 = ltau 1 1 := by
    rw [c0.hT 0 0, if_pos ⟨rfl, rfl⟩, hl0]
  have t01 : (g s1).T 0 1 = (g s0).T 0 1 := by
    rw [c0.hT 0 1, if_neg (by omega), if_neg (by omega)]
  have p01 : (g s1).A1 0 1 = 0 := by
    rw [c0.h1, applyQr_1, if_pos (by omega), hr0, sum_range_one]
    unfold setAt setCol
    rw [if_neg (by omega), if_pos rfl, if_neg (by omega), h.a01, h.b01]
    ring
  have p02 : (g s1).A1 0 2 = 1 := by
    rw [c0.h1, applyQr_1, if_neg (by omega)]
    unfold setAt
    rw [if_neg (by omega), h.a02]
  have p11 : (g s1).A1 1 1 = 1 := by
    rw [c0.h1, applyQr_1, if_neg (by omega)]
    unfold setAt
    rw [if_neg (by omega), h.a11]
  have p12 : (g s1).A1 1 2 = 0 := by
    rw [c0.h1, applyQr_1, if_neg (by omega)]
    unfold setAt
    rw [if_neg (by omega), h.a12]
  have q01 : (g s1).A2 0 1 = 0 := by
    rw [c0.h2, applyQr_2, if_pos (by omega), hr0, sum_range_one]
    unfold setAt setCol
    rw [if_neg (show ¬ (1 = 0 + 0) by omega), if_neg (show ¬ (0 + 0 = 0 + 0 ∧ 1 = 0 + 0) by omega), h.a01, h.b01]
    ring
  have q11 : (g s1).A2 1 1 = 0 := by
    rw [c0.h2, applyQr_2, if_neg (by omega)]
    unfold setCol
    rw [if_neg (by omega), h.b11]
  have q2 : ∀ q, q < 3 → (g s1).A2 q 2 = 0 := by
    intro q hq
    rw [c0.h2, applyQr_2, if_neg (by omega)]
    unfold setCol
    rw [if_neg (by omega), h.b2 q hq]
  -- second column
  obtain ⟨y1, c1, z1⟩ := hS.hcol 0 1 2 s1 (by decide) (by omega)
  set s2 := col 0 2 1 s1 with hs2
  obtain ⟨l1, l2, l3⟩ := larfg_zero (k := rowsV true 3 (0 + 1) + 1) (a := (g s1).A1 (0 + 1) (0 + 1)) (x := fun q => (g s1).A2 q (0 + 1))
    (by rw [p11]; exact RCLike.one_im) (fun q hq => by
      rw [hr1] at hq
      have : q = 0 ∨ q = 1 := by omega
      rcases this with rfl | rfl
      · exact q01
      · exact q11)
  have u01 : (g s2).A1 0 1 = 0 := by
    rw [c1.h1, applyQr_1, if_neg (by omega)]
    unfold setAt
    rw [if_neg (by omega), p01]
  have u02 : (g s2).A1 0 2 = 1 := by
    rw [c1.h1, applyQr_1, if_neg (by omega)]
    unfold setAt
    rw [if_neg (by omega), p02]
  have u11 : (g s2).A1 1 1 = 1 := by
    rw [c1.h1, applyQr_1, if_neg (by omega)]
    unfold setAt
    rw [if_pos (by omega), l1, p11]
  have u12 : (g s2).A1 1 2 = 0 := by
    rw [c1.h1, applyQr_1, if_neg (by omega)]
    unfold setAt
    rw [if_neg (by omega), p12]
  have w2 : ∀ q, q < 3 → (g s2).A2 q 2 = 0 := by
    intro q hq
    rw [c1.h2, applyQr_2, if_neg (by omega)]
    unfold setCol
    rw [if_neg (by omega), q2 q hq]
  have v00 : (g s2).T 0 0 = ltau 1 1 := by
    rw [c1.hT 0 0, if_neg (by omega), if_neg (by omega), t00]
  have v11 : (g s2).T 1 1 = 0 := by
    rw [c1.hT 1 1, if_pos (by omega), l3]
  have v01 : (g s2).T 0 1 = ltau 1 1 * (g s0).T 0 1 := by
    rw [c1.hT 0 1, if_neg (by omega), if_pos (by omega), sum_range_one, if_pos le_rfl, z1.1 ⟨rfl, l3⟩ 0 (by omega)]
    rw [show (0 + 0 : Nat) = 0 from rfl, show (0 + 1 : Nat) = 1 from rfl, t00, t01]
  -- the column behind
  obtain ⟨s3, e3, b3⟩ := hS.hF 0 s0 (by omega)
  have hf : (List.range (tdim 3 2 0)).foldl (fun s i => col (0 * 2) (tdim 3 2 0) i s) s0 = s2 := rfl
  rw [hf] at b3
  have x01 : (g s3).A1 0 1 = 0 := by
    rw [b3.h1 0 1 (by omega), if_neg (by decide), u01]
  have x11 : (g s3).A1 1 1 = 1 := by
    rw [b3.h1 1 1 (by omega), if_neg (by decide), u11]
  have x12 : (g s3).A1 1 2 = -star (ltau (1 : 𝕜) 1 * (g s0).T 0 1) := by
    rw [b3.h1 1 2 (by omega), if_pos (by decide), u12]
    unfold wB
    have hs : ∀ p, ∑ q ∈ range 3, star (Pent.vt true (g s2).A2 q (0 * 2 + p)) * (g s2).A2 q 2 = 0 :=
      fun p => sum_eq_zero fun q hq => by rw [w2 q (mem_range.1 hq), mul_zero]
    simp only [hs, add_zero]
    rw [show tdim 3 2 0 = 2 by decide, sum_range_succ, sum_range_one]
    simp only [opE, trE, inTri, Pent.sub]
    norm_num
    rw [u02, u12, v01]
    simp [mul_comm]
  have k01 : (g s3).T 0 1 = ltau 1 1 * (g s0).T 0 1 := by rw [b3.hT, v01]
  have k00 : (g s3).T 0 0 = ltau 1 1 := by rw [b3.hT, v00]
  have k11 : (g s3).T 1 1 = 0 := by rw [b3.hT, v11]
  -- the last column
  obtain ⟨y2, c2, -⟩ := hS.hcol 2 0 1 s3 (by decide) (by omega)
  set s4 := col 2 1 0 s3 with hs4
  obtain ⟨s5, e5, b5⟩ := hS.hF 1 s3 (by omega)
  have hf5 : (List.range (tdim 3 2 1)).foldl (fun s i => col (1 * 2) (tdim 3 2 1) i s) s3 = s4 := rfl
  rw [hf5] at b5
  have hkeep : ∀ r c, r < 2 → c < 3 → (g s5).A1 r c = (g s3).A1 r c := by
    intro r c hr hc
    rw [b5.h1 r c hc, if_neg (by omega), c2.h1, applyQr_1, if_neg (by omega)]
    unfold setAt
    rw [if_neg (by omega)]
  have hkT : ∀ l c, c < 2 → (g s5).T l c = (g s3).T l c := by
    intro l c hc
    rw [b5.hT, c2.hT, if_neg (by omega), if_neg (by omega)]
  refine ⟨s5, ?_, ?_, ?_, ?_, ?_, ?_, ?_⟩
  · show (F (0 * 2) s0).bind (fun s => (F (1 * 2) s).bind some) = some s5
    rw [e3]
    show (F (1 * 2) s3).bind some = some s5
    rw [e5]
    rfl
  · rw [hkeep 0 1 (by omega) (by omega), x01]
  · rw [hkeep 1 1 (by omega) (by omega), x11]
  · rw [hkeep 1 2 (by omega) (by omega), x12]
  · rw [hkT 0 1 (by omega), k01]
  · rw [hkT 0 0 (by omega), k00]
  · rw [hkT 1 1 (by omega), k11]

/-! ### The kernel for one tile on a triangle -/

theorem hcol_id {d ii hi j : Nat} {sup : Sup} {X : Tl 𝕜} (him : RCLike.im (X j j) = 0) (hz : ∀ r, sup j r → X r j = 0) :
    hcol d sup ii hi j ⟨X, fun _ _ => 0⟩ = ⟨X, fun _ _ => 0⟩ := by
  have e : xn2 d sup j X = 0 := by
    unfold xn2
    refine sum_eq_zero fun r _ => ?_
    split_ifs with h
    · rw [hz r h, norm_zero]; norm_num
    · rfl
  have et : ltau (X j j) 0 = 0 := by unfold ltau; rw [if_pos ⟨rfl, him⟩]
  have eX : larfgCol d sup j X = X := by
    funext r c
    unfold larfgCol
    rw [e]
    split_ifs with h1 h2 h3
    · unfold lbet; rw [if_pos ⟨rfl, him⟩, h1, h2]
    · rw [h1, hz r h3, zero_mul]
    · rw [h1]
    · rfl
  unfold hcol
  dsimp only
  rw [e, et, eX]
  congr 1
  · funext r c
    split_ifs
    · simp
    · rfl
  · funext l c
    split_ifs
    · rfl
    · exact sum_eq_zero fun p _ => by simp
    · rfl

/-- A triangle with real diagonal is its own factor. -/
theorem hqr_id {d n k ib : Nat} {sup : Sup} {X : Tl 𝕜} (him : ∀ j, RCLike.im (X j j) = 0) (hz : ∀ j r, sup j r → X r j = 0)
    (hd : ∀ r c, d ≤ r → X r c = 0) : hqr d n k ib sup ⟨X, fun _ _ => 0⟩ = ⟨X, fun _ _ => 0⟩ := by
  unfold hqr
  have hblk : ∀ b, hblk d n k ib sup b ⟨X, fun _ _ => 0⟩ = ⟨X, fun _ _ => 0⟩ := by
    intro b
    have hcs : ∀ i, hcols d sup (b * ib) (b * ib + tdim k ib b) i ⟨X, fun _ _ => 0⟩ = ⟨X, fun _ _ => 0⟩ := by
      intro i
      unfold hcols
      induction i with
      | zero => rfl
      | succ i ih =>
        rw [List.range_succ, List.foldl_append, ih]
        exact hcol_id (him _) (hz _)
    unfold hblk
    dsimp only
    rw [hcs]
    congr 1
    funext r c
    split_ifs with h
    · have ew : wyBlk d k ib (hvec sup X) (fun _ _ => 0) b = 1 := by
        unfold wyBlk
        dsimp only
        have : (Matrix.of fun (l l' : Fin (tdim k ib b)) => if l ≤ l' then (0 : 𝕜) else 0) = 0 := by
          ext; simp
        rw [this, Matrix.mul_zero, Matrix.zero_mul, sub_zero]
      dsimp only
      rw [ew, Matrix.conjTranspose_one]
      unfold lmul
      split_ifs with hr
      · rw [Finset.sum_eq_single (⟨r, hr⟩ : Fin d)]
        · rw [Matrix.one_apply_eq, one_mul]
        · intro l _ hl
          rw [Matrix.one_apply_ne (fun e => hl e.symm), zero_mul]
        · intro h
          exact absurd (mem_univ _) h
      · rw [hd r c (by omega)]
    · rfl
  have : ∀ l : List Nat, l.foldl (fun s b => Qr.hblk d n k ib sup b s) (⟨X, fun _ _ => 0⟩ : HSt 𝕜) = ⟨X, fun _ _ => 0⟩ := by
    intro l
    induction l with
    | nil => rfl
    | cons b l ih => rw [List.foldl_cons, hblk b, ih]
  exact this _

end

end Verif.Fact

/-
Correctness of the tile matrix-multiplication algorithm at element level.
-/
import Verif.Gemm

namespace Verif.Tile

open Verif.Layout Finset

universe u v

variable {M : Type u} {α : Type v} [CommRing α] [StarRing α] [DecidableEq α]

/-- Shapes of the operands of `C := alpha op(A) op(B) + beta C` with inner dimension `k`. -/
structure GemmShape (ta tb : Trans) (k : Nat) (A B C : TMat M) : Prop where
  am : (if ta = .noTrans then A.d.m else A.d.n) = C.d.m
  an : (if ta = .noTrans then A.d.n else A.d.m) = k
  bm : (if tb = .noTrans then B.d.m else B.d.n) = k
  bn : (if tb = .noTrans then B.d.n else B.d.m) = C.d.n

/-- The tile of `op(A)` at block position `(m, k)`. -/
def opTile (t : Trans) (A : TMat M) (m k : Nat) : M × Nat × Nat :=
  if t = .noTrans then A.at' m k else A.at' k m

theorem opTile_id {t : Trans} {A : TMat M} {m k : Nat} : (opTile t A m k).1 = A.id := by
  unfold opTile; split <;> rfl

/-- The loop body of `pzgemm` in a uniform way. -/
theorem pzgemm_eq {ta tb : Trans} {k b : Nat} {alpha beta : α} {A B C : TMat M}
    (hA : A.Al b) (hs : GemmShape ta tb k A B C) :
    pzgemm ta tb alpha A B beta C =
    (List.range C.d.mt).flatMap fun m => (List.range C.d.nt).flatMap fun n =>
      if alpha = 0 ∨ k = 0 then
        [coreGemm ta tb (C.d.mview m) (C.d.nview n) 0 alpha (A.at' 0 0) (B.at' 0 0) beta (C.at' m n)]
      else (List.range (ceilDiv k b)).map fun l =>
          coreGemm ta tb (C.d.mview m) (C.d.nview n) (tdim k b l) alpha (opTile ta A m l) (opTile tb B l n)
            (if l = 0 then beta else 1) (C.at' m n) := by
  unfold pzgemm
  simp only [hs.an]
  by_cases ha : ta = .noTrans
  · have hk : A.d.n = k := by have := hs.an; simpa [ha] using this
    have hv : ∀ l ∈ List.range A.d.nt, A.d.nview l = tdim k b l := by
      intro l hl; rw [hA.nview (List.mem_range.mp hl), hk]
    have hnt : A.d.nt = ceilDiv k b := by rw [hA.nt_eq, hk]
    by_cases hb : tb = .noTrans
    · simp only [ha, hb, if_true, opTile]
      congr 1; funext m; congr 1; funext n; congr 1
      rw [← hnt]
      apply List.map_congr_left
      intro l hl; rw [hv l hl]
    · simp only [ha, hb, if_true, if_false, opTile]
      congr 1; funext m; congr 1; funext n; congr 1
      rw [← hnt]
      apply List.map_congr_left
      intro l hl; rw [hv l hl]
  · have hk : A.d.m = k := by have := hs.an; simpa [ha] using this
    have hv : ∀ l ∈ List.range A.d.mt, A.d.mview l = tdim k b l := by
      intro l hl; rw [hA.mview (List.mem_range.mp hl), hk]
    have hnt : A.d.mt = ceilDiv k b := by rw [hA.mt_eq, hk]
    by_cases hb : tb = .noTrans
    · simp only [ha, hb, if_true, if_false, opTile]
      congr 1; funext m; congr 1; funext n; congr 1
      rw [← hnt]
      apply List.map_congr_left
      intro l hl; rw [hv l hl]
    · simp only [ha, hb, if_false, opTile]
      congr 1; funext m; congr 1; funext n; congr 1
      rw [← hnt]
      apply List.map_congr_left
      intro l hl; rw [hv l hl]

omit [DecidableEq α] in
theorem opE_tile_left {t : Trans} {A : TMat M} {b : Nat} (hA : A.Al b) (s : Store (M × Nat × Nat) α)
    {m k i l : Nat} (hi : i < b) (hl : l < b) :
    opE t (s (opTile t A m k)) i l = opE t (A.el s) (m * b + i) (k * b + l) := by
  cases t <;> simp [opE, opTile, hA.el_tile s hi hl, hA.el_tile s hl hi]

/-- Element-level effect of `pzgemm`. -/
theorem pzgemm_el {ta tb : Trans} {k b : Nat} {alpha beta : α} {A B C : TMat M}
    (hA : A.Al b) (hB : B.Al b) (hC : C.Al b) (hs : GemmShape ta tb k A B C)
    (hac : A.id ≠ C.id) (hbc : B.id ≠ C.id) (s : Store (M × Nat × Nat) α) {r c : Nat}
    (hr : r < C.d.m) (hc : c < C.d.n) :
    C.el (texec (pzgemm ta tb alpha A B beta C) s) r c =
      beta * C.el s r c + alpha * ∑ l ∈ range k, opE ta (A.el s) r l * opE tb (B.el s) l c := by
  have hb := hC.pos
  rw [pzgemm_eq hA hs, flatMap_product]
  have hm := hC.row_mt hr
  have hn := hC.col_nt hc
  have hrb := Nat.mod_lt r hb
  have hcb := Nat.mod_lt c hb
  have hr' : r / b * b + r % b = r := by rw [Nat.mul_comm]; exact Nat.div_add_mod r b
  have hc' : c / b * b + c % b = c := by rw [Nat.mul_comm]; exact Nat.div_add_mod c b
  have hbox : box (C.d.mview (r / b)) (C.d.nview (c / b)) (r % b) (c % b) := by
    rw [hC.mview hm, hC.nview hn]
    exact ⟨mod_lt_tdim hb hr, mod_lt_tdim hb hc⟩
  have hneA : ∀ l, opTile ta A (r / b) l ≠ C.at' (r / b) (c / b) := fun l h =>
    hac (by have := congrArg Prod.fst h; rwa [opTile_id] at this)
  have hneB : ∀ l, opTile tb B l (c / b) ≠ C.at' (r / b) (c / b) := fun l h =>
    hbc (by have := congrArg Prod.fst h; rwa [opTile_id] at this)
  simp only [TMat.el, hC.mb, hC.nb]
  rw [texec_indep (D := fun p t => t.1 = A.id ∨ t.1 = B.id ∨ t = C.at' p.1 p.2) ?_ ?_ ?_ s
    (x := (r / b, c / b)) ?_ (Or.inr (Or.inr rfl))]
  · by_cases h0 : alpha = 0 ∨ k = 0
    · simp only [h0, if_true, texec_cons, texec_nil]
      unfold coreGemm
      rw [op2_self, paste_in hbox]
      rcases h0 with h0 | h0 <;> simp [h0]
    · simp only [h0, if_false]
      rw [gemm_acc hneA hneB s _ hbox]
      have hk : 0 < k := by rw [not_or] at h0; omega
      have hK : ceilDiv k b ≠ 0 := by
        have := (lt_ceilDiv (m := k) (k := 0) hb).mpr (by omega)
        omega
      rw [if_neg hK]
      congr 2
      refine Eq.trans ?_ (sum_tiles hb (fun l => opE ta (A.el s) r l * opE tb (B.el s) l c))
      apply Finset.sum_congr rfl
      intro t _
      apply Finset.sum_congr rfl
      intro l hl
      rw [mem_range, tdim_row] at hl
      have e1 := opE_tile_left (t := ta) hA s (m := r / b) (k := t) hrb hl.1
      have e2 := opE_tile_left (t := tb) hB s (m := t) (k := c / b) hl.1 hcb
      rw [e1, e2, hr', hc']
  · exact List.nodup_range.product List.nodup_range
  · intro p _
    have hw : ∀ {m n k : Nat} {al be : α} {a b' c : M × Nat × Nat}, a.1 = A.id → b'.1 = B.id →
        c = C.at' p.1 p.2 → Within (fun t => t.1 = A.id ∨ t.1 = B.id ∨ t = C.at' p.1 p.2)
          [coreGemm ta tb m n k al a b' be c] := by
      intro m n k al be a b' c ha hb' hc
      constructor
      · intro t ht; simp only [List.mem_singleton] at ht; subst ht; exact coreGemm_local
      · intro t ht; simp only [List.mem_singleton] at ht; subst ht
        exact op2_inside (fun _ _ _ => Or.inl ha) (fun _ _ _ => Or.inr (Or.inl hb'))
          (fun _ _ _ => Or.inr (Or.inr hc))
    by_cases h0 : alpha = 0 ∨ k = 0
    · simp only [h0, if_true]; exact hw rfl rfl rfl
    · simp only [h0, if_false]
      constructor
      · intro t ht
        obtain ⟨l, _, rfl⟩ := List.mem_map.mp ht
        exact coreGemm_local
      · intro t ht
        obtain ⟨l, _, rfl⟩ := List.mem_map.mp ht
        exact (hw opTile_id opTile_id rfl).2 _ (List.mem_singleton.mpr rfl)
  · intro p _ q _ hpq
    have hD : ¬ ((C.at' q.1 q.2).1 = A.id ∨ (C.at' q.1 q.2).1 = B.id ∨ C.at' q.1 q.2 = C.at' p.1 p.2) := by
      rintro (h | h | h)
      · exact hac h.symm
      · exact hbc h.symm
      · rw [TMat.at'_inj] at h; exact hpq (Prod.ext h.1 h.2)
    by_cases h0 : alpha = 0 ∨ k = 0
    · simp only [h0, if_true]; exact writes_op2 hD
    · simp only [h0, if_false]; exact Writes.map fun _ _ => writes_op2 hD
  · simp only [SProd.sprod]
    rw [List.pair_mem_product]
    simp [hm, hn]

theorem pzgemm_writes {ta tb : Trans} {k b : Nat} {alpha beta : α} {A B C : TMat M}
    (hA : A.Al b) (hs : GemmShape ta tb k A B C) :
    Writes (fun t => t.1 = C.id) (pzgemm ta tb alpha A B beta C) := by
  rw [pzgemm_eq hA hs]
  refine Writes.flatMap fun m _ => Writes.flatMap fun n _ => ?_
  split
  · exact writes_op2 rfl
  · exact Writes.map fun _ _ => writes_op2 rfl

theorem pzgemm_good {env : M → MatEnv} {ta tb : Trans} {k b : Nat} {alpha beta : α} {A B C : TMat M}
    (hA : Fits env b A) (hB : Fits env b B) (hC : Fits env b C) (hs : GemmShape ta tb k A B C) :
    Good (evalid env) (pzgemm ta tb alpha A B beta C) := by
  rw [pzgemm_eq hA.al hs]
  refine Good.flatMap fun m hm => Good.flatMap fun n hn => ?_
  rw [List.mem_range] at hm hn
  have hc : ∀ i j, box (C.d.mview m) (C.d.nview n) i j → evalid env (C.at' m n) i j := by
    intro i j hij
    rw [hC.al.mview hm, hC.al.nview hn] at hij
    exact hC.valid hij.1 hij.2
  split
  · refine Good.single coreGemm_local op2_declared (op2_inside ?_ ?_ hc)
    · intro i j h; split at h <;> simp [box] at h
    · intro i j h; split at h <;> simp [box] at h
  · refine Good.map fun l hl => Good.single coreGemm_local op2_declared (op2_inside ?_ ?_ hc)
    · intro i j h
      rw [hC.al.mview hm] at h
      have h1 := hs.am; have h2 := hs.an
      unfold opTile
      split at h <;> rename_i ht <;> simp only [ht, if_true, if_false] at h1 h2 ⊢
      · exact hA.valid (by rw [h1]; exact h.1) (by rw [h2]; exact h.2)
      · exact hA.valid (by rw [h2]; exact h.1) (by rw [h1]; exact h.2)
    · intro i j h
      rw [hC.al.nview hn] at h
      have h1 := hs.bm; have h2 := hs.bn
      unfold opTile
      split at h <;> rename_i ht <;> simp only [ht, if_true, if_false] at h1 h2 ⊢
      · exact hB.valid (by rw [h1]; exact h.1) (by rw [h2]; exact h.2)
      · exact hB.valid (by rw [h2]; exact h.1) (by rw [h1]; exact h.2)

end Verif.Tile

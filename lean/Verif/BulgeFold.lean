/-
The blocks of the bulge chasing, sweep by sweep, are full transformations: result is a real bidiagonal matrix.
-/
import Verif.BulgeSweep
import Verif.BulgeExec

namespace Verif.Bulge

open Verif.Sched Verif.Tile Verif.Fact Verif.Qr Finset Matrix

set_option linter.unusedSectionVars false

universe v

section
variable {𝕜 : Type v} [RCLike 𝕜] {sel : Nat → Nat} {n nb h s q : Nat} {S X : Store CM 𝕜}

theorem Lst_more {D l k : Nat} (hl : 0 < l) :
    appL .q .tq h D l (D + l) k (Lst h D D l (l - 1) X) = Lst h D D l (l - 1 + k) X := by
  unfold Lst
  rw [show D + l = D + 1 + (l - 1) by omega, appL_add]

theorem Rst_more {r c0 l m k : Nat} : appR .p .tp h c0 l (r + 1 + m) k (Rst h r c0 l m X) = Rst h r c0 l (m + k) X := by
  unfold Rst
  rw [appR_add (by simp) (by simp)]

theorem appR_zero {c0 l r0 m : Nat} (h0 : X .tp h c0 = 0) : appR .p .tp h c0 l r0 m X = X := by
  funext x i j
  unfold appR
  split_ifs with hc
  · rw [hc.1, h0]
    ring
  · rfl

theorem Lst_tp {c c0 l m h' j : Nat} : Lst h c c0 l m X .tp h' j = X .tp h' j := by
  simp [Lst, appL, genCol]

theorem Rst_tp {r c0 l m h' j : Nat} (hj : j ≠ c0) : Rst h r c0 l m X .tp h' j = X .tp h' j := by
  simp [Rst, appR, genRow, hj]

/-- For `nb = 1` only the first reflector of a sweep is stored in `TAUP`. -/
theorem Tq_tp {h' j : Nat} (hj : j ≠ s) : ∀ q, Tq n 1 h s q S .tp h' j = S .tp h' j
  | 0 => by unfold Tq; rw [Rst_tp hj]
  | q + 1 => by
    unfold Tq
    rw [if_neg (by omega), Lst_tp]
    exact Tq_tp hj q

/-- The blocks `1 .. p` of sweep `s`. -/
noncomputable def foldB (sel : Nat → Nat) (up : Bool) (n nb s p : Nat) (S : Store CM 𝕜) : Store CM 𝕜 :=
  (List.range' 1 p).foldl (fun S p => kern sel up n nb (p, s) S) S

theorem foldB_succ {up : Bool} {p : Nat} : foldB sel up n nb s (p + 1) S = kern sel up n nb (p + 1, s) (foldB sel up n nb s p S) := by
  unfold foldB
  rw [List.range'_concat, List.foldl_append, Nat.one_mul, Nat.add_comm 1 p]
  rfl

theorem kern1 (hs : 1 ≤ s) (hsn : s < n) : kern sel true n nb (1, s) S =
    Lst (sel s) s s (min (s + nb - 1) (n - 1) + 1 - s) (min (s + nb - 1) (n - 1) + 1 - s - 1)
      (Rst (sel s) (s - 1) s (min (s + nb - 1) (n - 1) + 1 - s) (min (s + nb - 1) (n - 1) + 1 - s) S) := by
  have hb : IsBlk n nb (1, s) := ⟨hs, hsn, le_rfl, len_pos n nb s⟩
  have e1 := stind_eq hb
  have e2 := edind_eq hb
  have e3 : bst nb (1, s) = s := by simp [bst]
  have e4 : bed n nb (1, s) = min (s + nb - 1) (n - 1) := by unfold bed; rw [e3]
  unfold kern
  rw [if_pos rfl, e1, e2, e3, e4]
  unfold zgbtype1cb Lst Rst
  simp only [if_true]
  rw [show s - 1 + 1 = s by omega]

theorem kern2 (hs : 1 ≤ s) (hsn : s < n) (hq : 2 * q + 2 ≤ len n nb s) : kern sel true n nb (2 * q + 2, s) S =
    zgbtype2cb sel true n nb (s + q * nb) (min (s + q * nb + nb - 1) (n - 1)) (s - 1) S := by
  have hb : IsBlk n nb (2 * q + 2, s) := ⟨hs, hsn, by show 1 ≤ 2 * q + 2; omega, hq⟩
  have e1 := stind_eq hb
  have e2 := edind_eq hb
  have e3 : bst nb (2 * q + 2, s) = s + q * nb := by
    unfold bst
    simp only
    rw [show (2 * q + 2 - 1) / 2 = q by omega]
  have e4 : bed n nb (2 * q + 2, s) = min (s + q * nb + nb - 1) (n - 1) := by unfold bed; rw [e3]
  unfold kern
  rw [if_neg (show ¬ 2 * q + 2 = 1 by omega), if_pos (show (2 * q + 2) % 2 = 0 by omega), e1, e2, e3, e4]

theorem kern3 (hs : 1 ≤ s) (hsn : s < n) (hq : 2 * q + 3 ≤ len n nb s) : kern sel true n nb (2 * q + 3, s) S =
    Lst (sel s) (s + (q + 1) * nb) (s + (q + 1) * nb) (min (s + (q + 1) * nb + nb - 1) (n - 1) + 1 - (s + (q + 1) * nb))
      (min (s + (q + 1) * nb + nb - 1) (n - 1) + 1 - (s + (q + 1) * nb) - 1)
      (appR .p .tp (sel s) (s + (q + 1) * nb) (min (s + (q + 1) * nb + nb - 1) (n - 1) + 1 - (s + (q + 1) * nb)) (s + (q + 1) * nb)
        (min (s + (q + 1) * nb + nb - 1) (n - 1) + 1 - (s + (q + 1) * nb)) S) := by
  have hb : IsBlk n nb (2 * q + 3, s) := ⟨hs, hsn, by show 1 ≤ 2 * q + 3; omega, hq⟩
  have e1 := stind_eq hb
  have e2 := edind_eq hb
  have e3 : bst nb (2 * q + 3, s) = s + (q + 1) * nb := by
    unfold bst
    simp only
    rw [show (2 * q + 3 - 1) / 2 = q + 1 by omega]
  have e4 : bed n nb (2 * q + 3, s) = min (s + (q + 1) * nb + nb - 1) (n - 1) := by unfold bed; rw [e3]
  unfold kern
  rw [if_neg (show ¬ 2 * q + 3 = 1 by omega), if_neg (show ¬ (2 * q + 3) % 2 = 0 by omega), e1, e2, e3, e4]
  unfold zgbtype3cb Lst
  simp only [if_true]
  rw [show s - 1 + 1 = s by omega]

/-- Type 2 before the end of the sweep. -/
theorem type2_mid {D : Nat} (hnb : 0 < nb) (hs : 1 ≤ s) (hD : D + nb + 1 < n) : zgbtype2cb sel true n nb D (min (D + nb - 1) (n - 1)) (s - 1)
      (Lst (sel s) D D nb (nb - 1) X) =
    (let Y := Lst (sel s) D D (min nb (n - D)) (min (D + 2 * nb - 1) (n - 1) - D) X
     if 2 ≤ nb then Rst (sel s) D (D + nb) (min (D + 2 * nb) n - (D + nb)) (nb - 1) Y else Y) := by
  have e1 : min (D + nb - 1) (n - 1) = D + nb - 1 := by omega
  have e2 : min nb (n - D) = nb := by omega
  rw [e1, e2]
  unfold zgbtype2cb
  simp only [if_true]
  rw [show s - 1 + 1 = s by omega, show D + nb - 1 + 1 - D = nb by omega, show D + nb - 1 + 1 = D + nb by omega]
  obtain ⟨l, hl⟩ : ∃ l, min (D + nb - 1 + nb) (n - 1) + 1 - (D + nb) = l := ⟨_, rfl⟩
  have hl0 : l > 0 := by omega
  rw [hl, if_pos hl0, Lst_more hnb, show nb - 1 + l = min (D + 2 * nb - 1) (n - 1) - D by omega,
    show min (D + 2 * nb) n - (D + nb) = l by omega]
  by_cases h2 : 2 ≤ nb
  · rw [if_pos h2, if_pos (by omega)]
    rfl
  · rw [if_neg h2, if_neg (by omega)]

/-- Type 2 at the end of the sweep. -/
theorem type2_end {D : Nat} (hnb : 0 < nb) (hs : 1 ≤ s) (hD : D < n) (hDn : n ≤ D + nb + 1) :
    zgbtype2cb sel true n nb D (min (D + nb - 1) (n - 1)) (s - 1) (Lst (sel s) D D (min nb (n - D)) (min nb (n - D) - 1) X) =
    Lst (sel s) D D (min nb (n - D)) (min (D + 2 * nb - 1) (n - 1) - D) X := by
  unfold zgbtype2cb
  simp only [if_true]
  rw [show s - 1 + 1 = s by omega, show min (D + nb - 1) (n - 1) + 1 - D = min nb (n - D) by omega,
    show min (D + nb - 1) (n - 1) + 1 = D + min nb (n - D) by omega]
  obtain ⟨l, hl⟩ : ∃ l, min (min (D + nb - 1) (n - 1) + nb) (n - 1) + 1 - (D + min nb (n - D)) = l := ⟨_, rfl⟩
  rw [hl, if_neg (show ¬ l > 1 by omega)]
  by_cases h0 : l > 0
  · rw [if_pos h0, Lst_more (by omega)]
    congr 1
    omega
  · rw [if_neg h0]
    congr 1
    omega

/-- After an odd block. -/
theorem foldB_odd (hn : 2 ≤ n) (hnb : 0 < nb) (hs : 1 ≤ s) (hsn : s < n) (htp : nb = 1 → ∀ h j, s < j → S .tp h j = 0) :
    ∀ q, 2 * q + 1 ≤ len n nb s → foldB sel true n nb s (2 * q + 1) S =
      Lst (sel s) (s + q * nb) (s + q * nb) (min nb (n - (s + q * nb))) (min nb (n - (s + q * nb)) - 1) (Tq n nb (sel s) s q S)
  | 0, _ => by
    rw [show 2 * 0 + 1 = 0 + 1 by rfl, foldB_succ]
    show kern sel true n nb (1, s) S = _
    rw [kern1 hs hsn, Nat.zero_mul, Nat.add_zero]
    unfold Tq
    rw [show min (s + nb - 1) (n - 1) + 1 - s = min nb (n - s) by omega]
    rfl
  | q + 1, hq => by
    have hlast : s + q * nb + nb + 1 < n := by
      by_contra h
      have h1 : isLast n nb (2 * q + 2, s) = true := (isLast_even hs).mpr (by omega)
      have := (last_iff hn hnb (by omega) hs).mp h1
      omega
    rw [show 2 * (q + 1) + 1 = 2 * q + 3 by ring, show 2 * q + 3 = (2 * q + 1 + 1) + 1 by ring, foldB_succ, foldB_succ,
      foldB_odd hn hnb hs hsn htp q (by omega), show 2 * q + 1 + 1 = 2 * q + 2 by ring, kern2 hs hsn (by omega),
      show 2 * q + 2 + 1 = 2 * q + 3 by ring, kern3 hs hsn (by omega)]
    have eD : s + (q + 1) * nb = s + q * nb + nb := by rw [Nat.add_mul]; omega
    rw [eD]
    have hT : Tq n nb (sel s) s (q + 1) S =
        if 2 ≤ nb then Rst (sel s) (s + q * nb) (s + q * nb + nb) (min (s + q * nb + 2 * nb) n - (s + q * nb + nb))
          (min (s + q * nb + 2 * nb - 1) (n - 1) - (s + q * nb)) (Lst (sel s) (s + q * nb) (s + q * nb) (min nb (n - (s + q * nb)))
            (min (s + q * nb + 2 * nb - 1) (n - 1) - (s + q * nb)) (Tq n nb (sel s) s q S))
        else (Lst (sel s) (s + q * nb) (s + q * nb) (min nb (n - (s + q * nb)))
            (min (s + q * nb + 2 * nb - 1) (n - 1) - (s + q * nb)) (Tq n nb (sel s) s q S)) := rfl
    have hj : nb = 1 → Tq n nb (sel s) s q S .tp (sel s) (s + q * nb + nb) = 0 := by
      rintro rfl
      rw [Tq_tp (by omega)]
      exact htp rfl _ _ (by omega)
    rw [hT]
    clear hT eD
    generalize Tq n nb (sel s) s q S = X at *
    generalize s + q * nb = D at *
    have e2 : min nb (n - D) = nb := by omega
    have h2 := type2_mid (sel := sel) (X := X) hnb hs hlast
    rw [e2] at h2 ⊢
    rw [h2, show min (D + nb + nb - 1) (n - 1) + 1 - (D + nb) = min nb (n - (D + nb)) by omega]
    congr 1
    simp only
    by_cases h2 : 2 ≤ nb
    · rw [if_pos h2, if_pos h2, show min nb (n - (D + nb)) = min (D + 2 * nb) n - (D + nb) by omega]
      have := Rst_more (h := sel s) (r := D) (c0 := D + nb) (l := min (D + 2 * nb) n - (D + nb)) (m := nb - 1)
        (k := min (D + 2 * nb) n - (D + nb)) (X := Lst (sel s) D D nb (min (D + 2 * nb - 1) (n - 1) - D) X)
      rw [show D + 1 + (nb - 1) = D + nb by omega] at this
      rw [this]
      congr 1
      omega
    · rw [if_neg h2, if_neg h2]
      refine appR_zero ?_
      rw [Lst_tp]
      exact hj (by omega)

/-- Number of the last pair of blocks of a sweep. -/
theorem last_pair (hn : 2 ≤ n) (hnb : 0 < nb) (hs : 1 ≤ s) (hsn : s < n) : ∃ q, (len n nb s = 2 * q + 1 ∨ len n nb s = 2 * q + 2) ∧
    (0 < q → s + (q - 1) * nb + nb + 1 < n) ∧ s + q * nb < n ∧ n ≤ s + q * nb + nb + 1 ∧
    (len n nb s = 2 * q + 1 → n ≤ s + q * nb + nb) := by
  obtain ⟨q, hq⟩ : ∃ q, len n nb s = 2 * q + 1 ∨ len n nb s = 2 * q + 2 := ⟨(len n nb s - 1) / 2, by
    have := len_pos n nb s
    omega⟩
  have hl := len_last (n := n) hnb hs
  have h0 : 0 < q → s + (q - 1) * nb + nb + 1 < n := by
    intro h0
    by_contra hc
    have h1 : isLast n nb (2 * (q - 1) + 2, s) = true := (isLast_even hs).mpr (by omega)
    have := (last_iff hn hnb (by omega) hs).mp h1
    omega
  refine ⟨q, hq, h0, ?_, ?_, ?_⟩
  · rcases Nat.eq_zero_or_pos q with rfl | hq0
    · omega
    · have := h0 hq0
      have e : (q - 1) * nb + nb = q * nb := by rw [← Nat.succ_mul]; congr 1; omega
      omega
  · rcases hq with e | e
    · rw [e, isLast_odd hn hnb hs] at hl
      omega
    · rw [e, isLast_even hs] at hl
      omega
  · intro e
    rw [e, isLast_odd hn hnb hs] at hl
    omega

/-- A sweep is a sequence of full transformations. -/
theorem foldB_sw (hn : 2 ≤ n) (hnb : 0 < nb) (hs : 1 ≤ s) (hsn : s < n) (htp : nb = 1 → ∀ h j, s < j → S .tp h j = 0) :
    ∃ q, (0 < q → s + (q - 1) * nb + nb + 1 < n) ∧ s + q * nb < n ∧ n ≤ s + q * nb + nb + 1 ∧
      foldB sel true n nb s (len n nb s) S = Sw n nb (sel s) s q S ∧ (len n nb s + 1) / 2 = q + 1 := by
  obtain ⟨q, hl, h0, h1, h2, h3⟩ := last_pair hn hnb hs hsn
  refine ⟨q, h0, h1, h2, ?_, by omega⟩
  have ho := foldB_odd (sel := sel) hn hnb hs hsn htp q (by omega)
  unfold Sw
  rcases hl with e | e
  · rw [e, ho]
    have := h3 e
    congr 1
    omega
  · rw [e, show 2 * q + 2 = 2 * q + 1 + 1 by ring, foldB_succ, ho, show 2 * q + 1 + 1 = 2 * q + 2 by ring, kern2 hs hsn (by omega),
      type2_end hnb hs h1 h2]

theorem chaseSeq_eq (up : Bool) : chaseSeq sel up n nb S = (List.range' 1 (n - 1)).foldl (fun S s => foldB sel up n nb s (len n nb s) S) S := by
  unfold chaseSeq blocks
  rw [List.foldl_flatMap]
  congr 1
  funext S s
  unfold foldB
  rw [List.foldl_map]

/-- **All sweeps, upper case**: a band matrix becomes a real bidiagonal matrix. -/
theorem chase_upper (hn : 2 ≤ n) (hnb : 0 < nb) (hz : ∀ r c, r < n → c < n → ¬ (r ≤ c ∧ c ≤ r + nb) → S .a r c = 0)
    (htp : nb = 1 → ∀ h j, S .tp h j = 0) :
    UEq (mat n n (S .a)) (mat n n (chaseSeq sel true n nb S .a)) ∧
    (∀ r c, r < n → c < n → ¬ (c = r ∨ c = r + 1) → chaseSeq sel true n nb S .a r c = 0) ∧
    (∀ r, 1 ≤ r → r < n → star (chaseSeq sel true n nb S .a r r) = chaseSeq sel true n nb S .a r r ∧
      star (chaseSeq sel true n nb S .a (r - 1) r) = chaseSeq sel true n nb S .a (r - 1) r) ∧
    chaseSeq sel true n nb S .a 0 0 = S .a 0 0 := by
  rw [chaseSeq_eq]
  have key : ∀ k, k ≤ n - 1 →
      UEq (mat n n (S .a)) (mat n n ((List.range' 1 k).foldl (fun S s => foldB sel true n nb s (len n nb s) S) S .a)) ∧
      Zout n (Pat nb k) ((List.range' 1 k).foldl (fun S s => foldB sel true n nb s (len n nb s) S) S) ∧
      RealTo k ((List.range' 1 k).foldl (fun S s => foldB sel true n nb s (len n nb s) S) S) ∧
      (List.range' 1 k).foldl (fun S s => foldB sel true n nb s (len n nb s) S) S .a 0 0 = S .a 0 0 ∧
      (nb = 1 → ∀ h j, k < j → (List.range' 1 k).foldl (fun S s => foldB sel true n nb s (len n nb s) S) S .tp h j = 0) := by
    intro k
    induction k with
    | zero =>
      intro _
      refine ⟨UEq.refl _, fun r c hr hc hp => hz r c hr hc fun hb => hp (pat_band hnb hb), fun r h1 h2 => by omega, rfl,
        fun e h j _ => htp e h j⟩
    | succ k ih =>
      intro hk
      obtain ⟨h1, h2, h3, h4, h5⟩ := ih (by omega)
      rw [List.range'_concat, List.foldl_append, Nat.one_mul, Nat.add_comm 1 k]
      simp only [List.foldl_cons, List.foldl_nil]
      generalize (List.range' 1 k).foldl (fun S s => foldB sel true n nb s (len n nb s) S) S = X at *
      obtain ⟨q, g0, g1, g2, g3, -⟩ := foldB_sw (sel := sel) (S := X) hn hnb (show 1 ≤ k + 1 by omega) (by omega) (fun e h j hj => h5 e h j (by omega))
      rw [g3]
      obtain ⟨e1, e2, e3, e4⟩ := Sw_spec (h := sel (k + 1)) hnb (show 1 ≤ k + 1 by omega) (by omega) h2 h3 g0 g1 g2
      refine ⟨h1.trans e1, e2, e3, e4.trans h4, ?_⟩
      rintro rfl h j hj
      unfold Sw
      rw [Lst_tp, Tq_tp (by omega)]
      exact h5 rfl h j (by omega)
  obtain ⟨h1, h2, h3, h4, -⟩ := key (n - 1) le_rfl
  refine ⟨h1, fun r c hr hc hp => h2 r c hr hc fun hq => hp (pat_end hr hc hq), fun r hr hrn => h3 r hr (by omega), h4⟩

theorem chaseSeq_flip : chaseSeq sel false n nb (flip S) = flip (chaseSeq sel true n nb S) := by
  unfold chaseSeq
  generalize blocks n nb = L
  induction L generalizing S with
  | nil => rfl
  | cons b L ih =>
    rw [List.foldl_cons, List.foldl_cons, kern_flip]
    exact ih

/-- **All sweeps, lower case.** -/
theorem chase_lower (hn : 2 ≤ n) (hnb : 0 < nb) (hz : ∀ r c, r < n → c < n → ¬ (c ≤ r ∧ r ≤ c + nb) → S .a r c = 0)
    (htq : nb = 1 → ∀ h j, S .tq h j = 0) :
    UEq (mat n n (S .a)) (mat n n (chaseSeq sel false n nb S .a)) ∧
    (∀ r c, r < n → c < n → ¬ (r = c ∨ r = c + 1) → chaseSeq sel false n nb S .a r c = 0) ∧
    (∀ r, 1 ≤ r → r < n → star (chaseSeq sel false n nb S .a r r) = chaseSeq sel false n nb S .a r r ∧
      star (chaseSeq sel false n nb S .a r (r - 1)) = chaseSeq sel false n nb S .a r (r - 1)) ∧
    chaseSeq sel false n nb S .a 0 0 = S .a 0 0 := by
  obtain ⟨T, rfl⟩ : ∃ T, S = flip T := ⟨flip S, flip_flip.symm⟩
  rw [chaseSeq_flip, flip_mat, flip_mat]
  obtain ⟨h1, h2, h3, h4⟩ := chase_upper (sel := sel) (S := T) hn hnb (by
    intro r c hr hc hp
    have := hz c r hc hr hp
    exact star_eq_zero.mp this) (fun e h j => htq e h j)
  refine ⟨ueq_star h1, fun r c hr hc hp => ?_, fun r hr hrn => ?_, ?_⟩
  · show star (chaseSeq sel true n nb T .a c r) = 0
    rw [h2 c r hc hr hp, star_zero]
  · obtain ⟨k1, k2⟩ := h3 r hr hrn
    refine ⟨?_, ?_⟩
    · show star (star (chaseSeq sel true n nb T .a r r)) = star (chaseSeq sel true n nb T .a r r)
      rw [k1, k1]
    · show star (star (chaseSeq sel true n nb T .a (r - 1) r)) = star (chaseSeq sel true n nb T .a (r - 1) r)
      rw [k2, k2]
  · show star (chaseSeq sel true n nb T .a 0 0) = star (T .a 0 0)
    rw [h4]

end

end Verif.Bulge

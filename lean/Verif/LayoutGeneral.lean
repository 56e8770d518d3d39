/-
Facts about the address arithmetic of general (full) descriptors: bounds,
injectivity, coverage, and relation between tiles of views and tiles of the
underlying matrix.
-/
import Verif.Layout

namespace Verif.Layout

/-- The offset computed by `Desc.off` for a general descriptor, in terms of the
indices of the tile in the underlying matrix. -/
def goff (mb nb gm gn mm nn i j : Nat) : Nat :=
  if mm < gm / mb then
    if nn < gn / nb then mb * nb * (mm + gm / mb * nn) + i + j * mb
    else ((gm % mb) * (gn - gn % nb) + (gm - gm % mb) * (gn - gn % nb)) + mb * (gn % nb) * mm
      + i + j * mb
  else
    if nn < gn / nb then (gm - gm % mb) * (gn - gn % nb) + nb * (gm % mb) * nn + i + j * (gm % mb)
    else ((gm - gm % mb) * (gn % nb) + ((gm % mb) * (gn - gn % nb) + (gm - gm % mb) * (gn - gn % nb)))
      + i + j * (gm % mb)

/-- A descriptor with the offsets set up by `plasma_desc_general_init`. -/
structure WFGen (A : Desc) : Prop where
  type : A.type = .general
  mb : 0 < A.mb
  nb : 0 < A.nb
  A21 : A.A21 = (A.gm - A.gm % A.mb) * (A.gn - A.gn % A.nb)
  A12 : A.A12 = (A.gm % A.mb) * (A.gn - A.gn % A.nb) + A.A21
  A22 : A.A22 = (A.gm - A.gm % A.mb) * (A.gn % A.nb) + A.A12

theorem wfgen_general {mb nb : Nat} (hmb : 0 < mb) (hnb : 0 < nb) (lm ln i j m n : Nat) :
    WFGen (general mb nb lm ln i j m n) :=
  ⟨rfl, hmb, hnb, rfl, rfl, rfl⟩

theorem WFGen.off_eq {A : Desc} (h : WFGen A) (m n i j : Nat) :
    A.off m n i j = goff A.mb A.nb A.gm A.gn (m + A.i / A.mb) (n + A.j / A.nb) i j := by
  have h1 : A.i / A.mb + m = m + A.i / A.mb := by omega
  simp only [Desc.off, Desc.tile, Desc.ld, Desc.mmain, h.type, Desc.tileGeneral, goff, h1,
    h.A21, h.A12, h.A22]
  simp only [reduceCtorEq, if_false]
  split <;> split <;> rfl

section
variable {mb nb gm gn : Nat}

theorem sub_mod_eq : gm - gm % mb = mb * (gm / mb) := by
  have := Nat.div_add_mod gm mb
  omega

/-- total size by regions -/
theorem size_eq : gm * gn = mb * nb * (gm / mb * (gn / nb)) + (gm % mb) * (nb * (gn / nb)) +
    mb * (gm / mb) * (gn % nb) + (gm % mb) * (gn % nb) := by
  have h1 := Nat.div_add_mod gm mb
  have h2 := Nat.div_add_mod gn nb
  conv_lhs => rw [← h1, ← h2]
  ring

/-- in-tile bounds in terms of main tile dimensions -/
def TileOK (mb nb gm gn mm nn i j : Nat) : Prop :=
  i < tdim gm mb mm ∧ j < tdim gn nb nn

theorem tileOK_iff {mm nn i j : Nat} : TileOK mb nb gm gn mm nn i j ↔
    i < mb ∧ mm * mb + i < gm ∧ j < nb ∧ nn * nb + j < gn := by
  simp only [TileOK, tdim_row]
  tauto

theorem main_cases (hmb : 0 < mb) {mm i : Nat} (h : i < tdim gm mb mm) :
    (mm < gm / mb ∧ i < mb) ∨ (¬ mm < gm / mb ∧ mm = gm / mb ∧ i < gm % mb) := by
  rw [tdim_row] at h
  have hk : mm * mb < gm := by omega
  have he := tdim_eq_main hmb hk
  have hi : i < tdim gm mb mm := tdim_row.mpr h
  rw [← he] at hi
  split at hi
  · left; exact ⟨by assumption, hi⟩
  · right
    rename_i hn
    refine ⟨hn, ?_, hi⟩
    have : mm ≤ gm / mb := (Nat.le_div_iff_mul_le hmb).mpr (by omega)
    omega

theorem goff_lt (hmb : 0 < mb) (hnb : 0 < nb) {mm nn i j : Nat}
    (h : TileOK mb nb gm gn mm nn i j) : goff mb nb gm gn mm nn i j < gm * gn := by
  obtain ⟨hi, hj⟩ := h
  rw [size_eq (mb := mb) (nb := nb)]
  unfold goff
  simp only [sub_mod_eq]
  rcases main_cases hmb hi with ⟨h1, h2⟩ | ⟨h1, h1', h2⟩ <;>
  rcases main_cases hnb hj with ⟨h3, h4⟩ | ⟨h3, h3', h4⟩
  · rw [if_pos h1, if_pos h3]
    have := pack3_lt h2 h4 (pack_lt h1 h3)
    omega
  · rw [if_pos h1, if_neg h3]
    have := pack3_lt h2 h4 h1
    have e1 : mb * (gm / mb) * (nb * (gn / nb)) = mb * nb * (gm / mb * (gn / nb)) := by ring
    have e2 : mb * (gm / mb) * (gn % nb) = mb * (gn % nb) * (gm / mb) := by ring
    rw [e1, e2]
    omega
  · rw [if_neg h1, if_pos h3]
    have := pack3_lt h2 h4 h3
    have e1 : mb * (gm / mb) * (nb * (gn / nb)) = mb * nb * (gm / mb * (gn / nb)) := by ring
    have e2 : nb * (gm % mb) * nn = gm % mb * nb * nn := by ring
    have e3 : gm % mb * (nb * (gn / nb)) = gm % mb * nb * (gn / nb) := by ring
    rw [e1, e2, e3]
    omega
  · rw [if_neg h1, if_neg h3]
    have := pack_lt h2 h4
    have e1 : mb * (gm / mb) * (nb * (gn / nb)) = mb * nb * (gm / mb * (gn / nb)) := by ring
    have e2 : j * (gm % mb) = gm % mb * j := by ring
    rw [e1, e2]
    omega

/-- Region of a tile: which of the four parts of the storage it lives in. -/
theorem goff_region (hmb : 0 < mb) (hnb : 0 < nb) {mm nn i j : Nat}
    (h : TileOK mb nb gm gn mm nn i j) :
    (mm < gm / mb ∧ nn < gn / nb ∧ i < mb ∧ j < nb ∧
      goff mb nb gm gn mm nn i j = mb * nb * (mm + gm / mb * nn) + i + j * mb ∧
      goff mb nb gm gn mm nn i j < mb * nb * (gm / mb * (gn / nb))) ∨
    (mm = gm / mb ∧ nn < gn / nb ∧ i < gm % mb ∧ j < nb ∧
      goff mb nb gm gn mm nn i j = mb * nb * (gm / mb * (gn / nb)) +
        (gm % mb * nb * nn + i + j * (gm % mb)) ∧
      goff mb nb gm gn mm nn i j < mb * nb * (gm / mb * (gn / nb)) + gm % mb * nb * (gn / nb)) ∨
    (mm < gm / mb ∧ nn = gn / nb ∧ i < mb ∧ j < gn % nb ∧
      goff mb nb gm gn mm nn i j = mb * nb * (gm / mb * (gn / nb)) + gm % mb * nb * (gn / nb) +
        (mb * (gn % nb) * mm + i + j * mb) ∧
      goff mb nb gm gn mm nn i j < mb * nb * (gm / mb * (gn / nb)) + gm % mb * nb * (gn / nb) +
        mb * (gn % nb) * (gm / mb)) ∨
    (mm = gm / mb ∧ nn = gn / nb ∧ i < gm % mb ∧ j < gn % nb ∧
      goff mb nb gm gn mm nn i j = mb * nb * (gm / mb * (gn / nb)) + gm % mb * nb * (gn / nb) +
        mb * (gn % nb) * (gm / mb) + (i + gm % mb * j)) := by
  obtain ⟨hi, hj⟩ := h
  unfold goff
  simp only [sub_mod_eq]
  have e1 : mb * (gm / mb) * (nb * (gn / nb)) = mb * nb * (gm / mb * (gn / nb)) := by ring
  have e2 : mb * (gm / mb) * (gn % nb) = mb * (gn % nb) * (gm / mb) := by ring
  have e3 : gm % mb * (nb * (gn / nb)) = gm % mb * nb * (gn / nb) := by ring
  have e4 : nb * (gm % mb) * nn = gm % mb * nb * nn := by ring
  have e5 : j * (gm % mb) = gm % mb * j := by ring
  rw [e1, e2, e3, e4]
  rcases main_cases hmb hi with ⟨h1, h2⟩ | ⟨h1, h1', h2⟩ <;>
  rcases main_cases hnb hj with ⟨h3, h4⟩ | ⟨h3, h3', h4⟩
  · rw [if_pos h1, if_pos h3]
    left
    have := pack3_lt h2 h4 (pack_lt h1 h3)
    exact ⟨h1, h3, h2, h4, rfl, by omega⟩
  · rw [if_pos h1, if_neg h3]
    right; right; left
    have := pack3_lt h2 h4 h1
    exact ⟨h1, h3', h2, h4, by omega, by omega⟩
  · rw [if_neg h1, if_pos h3]
    right; left
    have := pack3_lt h2 h4 h3
    exact ⟨h1', h3, h2, h4, by omega, by omega⟩
  · rw [if_neg h1, if_neg h3]
    right; right; right
    exact ⟨h1', h3', h2, h4, by omega⟩

theorem goff_inj (hmb : 0 < mb) (hnb : 0 < nb) {mm nn i j mm' nn' i' j' : Nat}
    (h : TileOK mb nb gm gn mm nn i j) (h' : TileOK mb nb gm gn mm' nn' i' j')
    (he : goff mb nb gm gn mm nn i j = goff mb nb gm gn mm' nn' i' j') :
    mm = mm' ∧ nn = nn' ∧ i = i' ∧ j = j' := by
  rcases goff_region hmb hnb h with ⟨a1, a2, a3, a4, a5, a6⟩ | ⟨a1, a2, a3, a4, a5, a6⟩ |
      ⟨a1, a2, a3, a4, a5, a6⟩ | ⟨a1, a2, a3, a4, a5⟩ <;>
  rcases goff_region hmb hnb h' with ⟨b1, b2, b3, b4, b5, b6⟩ | ⟨b1, b2, b3, b4, b5, b6⟩ |
      ⟨b1, b2, b3, b4, b5, b6⟩ | ⟨b1, b2, b3, b4, b5⟩ <;>
  try (exfalso; omega)
  · rw [a5, b5] at he
    obtain ⟨c1, c2, c3⟩ := pack3_inj a3 a4 b3 b4 he
    obtain ⟨c4, c5⟩ := pack_inj a1 b1 c3
    exact ⟨c4, c5, c1, c2⟩
  · rw [a5, b5] at he
    obtain ⟨c1, c2, c3⟩ := pack3_inj a3 a4 b3 b4 (Nat.add_left_cancel he)
    exact ⟨by omega, c3, c1, c2⟩
  · rw [a5, b5] at he
    obtain ⟨c1, c2, c3⟩ := pack3_inj a3 a4 b3 b4 (Nat.add_left_cancel he)
    exact ⟨c3, by omega, c1, c2⟩
  · rw [a5, b5] at he
    obtain ⟨c1, c2⟩ := pack_inj a3 b3 (Nat.add_left_cancel he)
    exact ⟨by omega, by omega, c1, c2⟩

theorem goff_surj (hmb : 0 < mb) (hnb : 0 < nb) {x : Nat} (hx : x < gm * gn) :
    ∃ mm nn i j, TileOK mb nb gm gn mm nn i j ∧ goff mb nb gm gn mm nn i j = x := by
  have hdm := Nat.div_add_mod gm mb
  have hdn := Nat.div_add_mod gn nb
  have full : ∀ {b g t k : Nat}, t < g / b → k < b → t * b + k < g := by
    intro b g t k ht hk
    have h1 := Nat.div_mul_le_self g b
    have h2 : (t + 1) * b ≤ g / b * b := Nat.mul_le_mul_right _ ht
    have h3 : (t+1) * b = t * b + b := by ring
    omega
  have part : ∀ {b g k : Nat}, k < g % b → g / b * b + k < g := by
    intro b g k hk
    have h1 := Nat.div_add_mod g b
    have h2 : g / b * b = b * (g / b) := by ring
    omega
  have e3 : gm % mb * (nb * (gn / nb)) = gm % mb * nb * (gn / nb) := by ring
  have e2 : mb * (gm / mb) * (gn % nb) = mb * (gn % nb) * (gm / mb) := by ring
  rw [size_eq (mb := mb) (nb := nb), e3, e2] at hx
  by_cases hA : x < mb * nb * (gm / mb * (gn / nb))
  · obtain ⟨i, j, t, hi, hj, ht, rfl⟩ := pack3_surj hA
    obtain ⟨mm, nn, hmm, hnn, rfl⟩ := pack_surj ht
    refine ⟨mm, nn, i, j, ?_, ?_⟩
    · rw [tileOK_iff]
      exact ⟨hi, full hmm hi, hj, full hnn hj⟩
    · unfold goff
      rw [if_pos hmm, if_pos hnn]
  · by_cases hB : x < mb * nb * (gm / mb * (gn / nb)) + gm % mb * nb * (gn / nb)
    · obtain ⟨i, j, t, hi, hj, ht, hy⟩ :=
        pack3_surj (p := gm % mb) (q := nb) (T := gn / nb)
          (x := x - mb * nb * (gm / mb * (gn / nb))) (by omega)
      have hok : TileOK mb nb gm gn (gm / mb) t i j := by
        rw [tileOK_iff]
        exact ⟨lt_trans hi (Nat.mod_lt _ hmb), part hi, hj, full ht hj⟩
      refine ⟨gm / mb, t, i, j, hok, ?_⟩
      rcases goff_region hmb hnb hok with ⟨a1, _⟩ | ⟨a1, a2, a3, a4, a5, a6⟩ | ⟨a1, _⟩ | ⟨_, a2, _⟩ <;>
        omega
    · by_cases hC : x < mb * nb * (gm / mb * (gn / nb)) + gm % mb * nb * (gn / nb) +
          mb * (gn % nb) * (gm / mb)
      · obtain ⟨i, j, t, hi, hj, ht, hy⟩ :=
          pack3_surj (p := mb) (q := gn % nb) (T := gm / mb)
            (x := x - (mb * nb * (gm / mb * (gn / nb)) + gm % mb * nb * (gn / nb))) (by omega)
        have hok : TileOK mb nb gm gn t (gn / nb) i j := by
          rw [tileOK_iff]
          exact ⟨hi, full ht hi, lt_trans hj (Nat.mod_lt _ hnb), part hj⟩
        refine ⟨t, gn / nb, i, j, hok, ?_⟩
        rcases goff_region hmb hnb hok with ⟨_, a1, _⟩ | ⟨_, a1, _⟩ | ⟨a1, a2, a3, a4, a5, a6⟩ |
          ⟨a1, a2, a3, a4, a5⟩ <;> omega
      · obtain ⟨i, j, hi, hj, hy⟩ :=
          pack_surj (p := gm % mb) (q := gn % nb)
            (x := x - (mb * nb * (gm / mb * (gn / nb)) + gm % mb * nb * (gn / nb) +
              mb * (gn % nb) * (gm / mb))) (by omega)
        have hok : TileOK mb nb gm gn (gm / mb) (gn / nb) i j := by
          rw [tileOK_iff]
          exact ⟨lt_trans hi (Nat.mod_lt _ hmb), part hi, lt_trans hj (Nat.mod_lt _ hnb), part hj⟩
        refine ⟨gm / mb, gn / nb, i, j, hok, ?_⟩
        rcases goff_region hmb hnb hok with ⟨a1, _⟩ | ⟨_, a1, _⟩ | ⟨a1, _⟩ |
          ⟨a1, a2, a3, a4, a5⟩ <;> omega

end

end Verif.Layout

/-
Triangular tile layout (`plasma_desc_triangular_create`, `plasma_tile_addr_triangle`):
the tiles of the stored triangle do not overlap and stay inside the allocation.
-/
import Verif.LayoutGeneral

namespace Verif.Layout

/-- `plasma_desc_triangular_init` (control/descriptor.c:216-264) for a square matrix of
order `g` with square tiles of size `b`, the only shape the drivers create. -/
def triangular (up : Bool) (b g i j m n : Nat) : Desc where
  type := if up then .upper else .lower
  mb := b
  nb := b
  gm := g
  gn := g
  A21 := b * b * (g / b * (1 + g / b) / 2)
  A12 := b * b * (g / b * (1 + g / b) / 2)
  A22 := (g - g % b) * (g % b) + b * b * (g / b * (1 + g / b) / 2)
  i := i
  j := j
  m := m
  n := n
  mt := ntiles i m b
  nt := ntiles j n b
  kl := m - 1
  ku := n - 1
  klt := ntiles i m b
  kut := ntiles j n b

/-- Number of elements allocated (control/descriptor.c:108-112). -/
def triSize (b g : Nat) : Nat := g / b * (1 + g / b) / 2 * b * b + g * (g % b)

/-- Consecutive intervals of lengths `w 0, w 1, …` starting at `f 0`. -/
theorem blocks_mono {f w : Nat → Nat} {L : Nat} (h : ∀ n, n < L → f (n + 1) = f n + w n) {n n' : Nat}
    (hn : n < n') (hL : n' ≤ L) : f n + w n ≤ f n' := by
  induction n' with
  | zero => omega
  | succ k ih =>
    rw [h k (by omega)]
    rcases Nat.lt_or_ge n k with h1 | h1
    · have := ih h1 (by omega); omega
    · have : n = k := by omega
      subst this; omega

theorem blocks_inj {f w : Nat → Nat} {L : Nat} (h : ∀ n, n < L → f (n + 1) = f n + w n)
    {n n' x x' : Nat} (hn : n < L) (hn' : n' < L) (hx : x < w n) (hx' : x' < w n')
    (he : f n + x = f n' + x') : n = n' ∧ x = x' := by
  rcases Nat.lt_trichotomy n n' with h1 | h1 | h1
  · have := blocks_mono h h1 hn'.le; omega
  · subst h1; exact ⟨rfl, by omega⟩
  · have := blocks_mono h h1 hn.le; omega

/-- Start of packed column `n` of an upper triangle of tiles. -/
def upCol (n : Nat) : Nat := n * (n + 1) / 2
/-- Start of packed column `n` of a lower triangle of `L × L` tiles. -/
def loCol (L n : Nat) : Nat := n * (2 * L + 1 - n) / 2

theorem upCol_succ (n : Nat) : upCol (n + 1) = upCol n + (n + 1) := by
  unfold upCol
  rw [show (n + 1) * (n + 1 + 1) = n * (n + 1) + (n + 1) * 2 by ring, Nat.add_mul_div_right _ _ (by omega)]

theorem loCol_succ {L n : Nat} (h : n < L) : loCol L (n + 1) = loCol L n + (L - n) := by
  unfold loCol
  obtain ⟨d, rfl⟩ : ∃ d, L = n + d := ⟨L - n, by omega⟩
  rw [show 2 * (n + d) + 1 - (n + 1) = n + 2 * d by omega,
    show 2 * (n + d) + 1 - n = n + 2 * d + 1 by omega,
    show (n + 1) * (n + 2 * d) = n * (n + 2 * d + 1) + d * 2 by ring,
    Nat.add_mul_div_right _ _ (by omega)]
  omega

theorem loCol_last (L : Nat) : loCol L L = L * (1 + L) / 2 := by
  unfold loCol; rw [show 2 * L + 1 - L = 1 + L by omega]

/-- Position of tile `(m, n)` in the packed triangle. -/
def triIdx (up : Bool) (L m n : Nat) : Nat := if up then m + upCol n else (m - n) + loCol L n

theorem triIdx_lt {up : Bool} {L m n : Nat} (hm : m < L) (hn : n < L)
    (h : if up then m ≤ n else n ≤ m) : triIdx up L m n < L * (1 + L) / 2 := by
  unfold triIdx
  cases up
  · simp only [Bool.false_eq_true, if_false] at h ⊢
    rw [← loCol_last]
    have := blocks_mono (f := loCol L) (w := fun n => L - n) (fun n hn => loCol_succ hn)
      (n := n) (n' := L) hn le_rfl
    omega
  · simp only [if_true] at h ⊢
    have h1 := blocks_mono (f := upCol) (w := fun n => n + 1) (L := L) (fun n _ => upCol_succ n)
      (n := n) (n' := L) hn le_rfl
    have h3 : upCol L = L * (1 + L) / 2 := by unfold upCol; rw [Nat.add_comm 1 L]
    omega

theorem triIdx_inj {up : Bool} {L m n m' n' : Nat} (hm : m < L) (hn : n < L)
    (h : if up then m ≤ n else n ≤ m) (hm' : m' < L) (hn' : n' < L)
    (h' : if up then m' ≤ n' else n' ≤ m') (he : triIdx up L m n = triIdx up L m' n') :
    m = m' ∧ n = n' := by
  unfold triIdx at he
  cases up
  · simp only [Bool.false_eq_true, if_false] at h h' he
    obtain ⟨h1, h2⟩ := blocks_inj (f := loCol L) (w := fun n => L - n) (fun n hn => loCol_succ hn)
      hn hn' (x := m - n) (x' := m' - n') (by omega) (by omega) (by omega)
    omega
  · simp only [if_true] at h h' he
    obtain ⟨h1, h2⟩ := blocks_inj (f := upCol) (w := fun n => n + 1) (L := L) (fun n _ => upCol_succ n)
      hn hn' (x := m) (x' := m') (by omega) (by omega) (by omega)
    omega

section
variable {b g : Nat}

theorem tri_region (hb : 0 < b) {up : Bool} {m n i j : Nat} (h : TileOK b b g g m n i j)
    (ht : if up then m ≤ n else n ≤ m) :
    let o := (triangular up b g 0 0 g g).off m n i j
    let q := b * b * (g / b * (1 + g / b) / 2)
    let r := b * (g % b) * (g / b)
    (m < g / b ∧ n < g / b ∧ i < b ∧ j < b ∧ o = b * b * triIdx up (g / b) m n + i + j * b ∧ o < q) ∨
    (up = false ∧ m = g / b ∧ n < g / b ∧ i < g % b ∧ j < b ∧
      o = q + (g % b * b * n + i + j * (g % b)) ∧ o < q + r) ∨
    (up = true ∧ m < g / b ∧ n = g / b ∧ i < b ∧ j < g % b ∧
      o = q + (b * (g % b) * m + i + j * b) ∧ o < q + r) ∨
    (m = g / b ∧ n = g / b ∧ i < g % b ∧ j < g % b ∧ o = q + r + (i + g % b * j)) := by
  obtain ⟨hi, hj⟩ := h
  have hs : g - g % b = b * (g / b) := sub_mod_eq
  have hband : ((triangular up b g 0 0 g g).type = .band) = False := by
    cases up <;> simp [triangular]
  have htile : (triangular up b g 0 0 g g).off m n i j =
      (triangular up b g 0 0 g g).tileTriangle m n + i + j * (if m < g / b then b else g % b) := by
    unfold Desc.off Desc.ld Desc.tile Desc.mmain
    cases up <;> simp [triangular]
  have hT : (triangular up b g 0 0 g g).tileTriangle m n =
      if m < g / b then if n < g / b then b * b * triIdx up (g / b) m n
        else b * b * (g / b * (1 + g / b) / 2) + b * (g % b) * m
      else if n < g / b then b * b * (g / b * (1 + g / b) / 2) + b * (g % b) * n
        else (g - g % b) * (g % b) + b * b * (g / b * (1 + g / b) / 2) := by
    unfold Desc.tileTriangle triIdx upCol loCol
    cases up <;> simp [triangular]
  simp only []
  rw [htile, hT, hs]
  have e2 : b * (g / b) * (g % b) = b * (g % b) * (g / b) := by ring
  rw [e2]
  rcases main_cases hb hi with ⟨h1, h2⟩ | ⟨h1, h1', h2⟩ <;>
  rcases main_cases hb hj with ⟨h3, h4⟩ | ⟨h3, h3', h4⟩
  · left
    rw [if_pos h1, if_pos h3, if_pos h1]
    have := pack3_lt h2 h4 (triIdx_lt h1 h3 ht)
    exact ⟨h1, h3, h2, h4, rfl, by omega⟩
  · have hup : up = true := by
      cases up
      · simp at ht; omega
      · rfl
    right; right; left
    rw [if_pos h1, if_neg h3, if_pos h1]
    have := pack3_lt h2 h4 h1
    exact ⟨hup, h1, h3', h2, h4, by omega, by omega⟩
  · have hup : up = false := by
      cases up
      · rfl
      · simp at ht; omega
    right; left
    rw [if_neg h1, if_pos h3, if_neg h1]
    have := pack3_lt h2 h4 h3
    have e4 : b * (g % b) * n = g % b * b * n := by ring
    have e5 : b * (g % b) * (g / b) = g % b * b * (g / b) := by ring
    rw [e4, e5]
    exact ⟨hup, h1', h3, h2, h4, by omega, by omega⟩
  · right; right; right
    rw [if_neg h1, if_neg h3, if_neg h1]
    have e5 : j * (g % b) = g % b * j := by ring
    exact ⟨h1', h3', h2, h4, by omega⟩

/-- Distinct elements of the stored triangle of tiles have distinct addresses. -/
theorem tri_off_inj (hb : 0 < b) {up : Bool} {m n i j m' n' i' j' : Nat}
    (h : TileOK b b g g m n i j) (ht : if up then m ≤ n else n ≤ m)
    (h' : TileOK b b g g m' n' i' j') (ht' : if up then m' ≤ n' else n' ≤ m')
    (he : (triangular up b g 0 0 g g).off m n i j = (triangular up b g 0 0 g g).off m' n' i' j') :
    m = m' ∧ n = n' ∧ i = i' ∧ j = j' := by
  rcases tri_region hb h ht with ⟨a1, a2, a3, a4, a5, a6⟩ | ⟨a0, a1, a2, a3, a4, a5, a6⟩ |
      ⟨a0, a1, a2, a3, a4, a5, a6⟩ | ⟨a1, a2, a3, a4, a5⟩ <;>
  rcases tri_region hb h' ht' with ⟨b1, b2, b3, b4, b5, b6⟩ | ⟨b0, b1, b2, b3, b4, b5, b6⟩ |
      ⟨b0, b1, b2, b3, b4, b5, b6⟩ | ⟨b1, b2, b3, b4, b5⟩ <;>
  try (exfalso; first | omega | exact absurd (a0.symm.trans b0) (by decide))
  · rw [a5, b5] at he
    obtain ⟨c1, c2, c3⟩ := pack3_inj a3 a4 b3 b4 he
    obtain ⟨c4, c5⟩ := triIdx_inj a1 a2 ht b1 b2 ht' c3
    exact ⟨c4, c5, c1, c2⟩
  · rw [a5, b5] at he
    obtain ⟨c1, c2, c3⟩ := pack3_inj a3 a4 b3 b4 (Nat.add_left_cancel he)
    exact ⟨by omega, c3, c1, c2⟩
  · rw [a5, b5] at he
    obtain ⟨c1, c2, c3⟩ := pack3_inj a3 a4 b3 b4 (Nat.add_left_cancel he)
    exact ⟨c3, by omega, c1, c2⟩
  · rw [a5, b5] at he
    obtain ⟨c1, c2⟩ := pack_inj a3 b3 (Nat.add_left_cancel he)
    exact ⟨by omega, by omega, c1, c2⟩

/-- Every element of the stored triangle lies inside the allocation. -/
theorem tri_off_lt (hb : 0 < b) {up : Bool} {m n i j : Nat}
    (h : TileOK b b g g m n i j) (ht : if up then m ≤ n else n ≤ m) :
    (triangular up b g 0 0 g g).off m n i j < triSize b g := by
  have hsz : triSize b g = b * b * (g / b * (1 + g / b) / 2) + b * (g % b) * (g / b) + g % b * (g % b) := by
    unfold triSize
    conv_lhs => rw [show g * (g % b) = (b * (g / b) + g % b) * (g % b) by rw [Nat.div_add_mod]]
    ring
  rw [hsz]
  rcases tri_region hb h ht with ⟨a1, a2, a3, a4, a5, a6⟩ | ⟨a0, a1, a2, a3, a4, a5, a6⟩ |
      ⟨a0, a1, a2, a3, a4, a5, a6⟩ | ⟨a1, a2, a3, a4, a5⟩
  · omega
  · omega
  · omega
  · have := pack_lt a3 a4
    omega

end

end Verif.Layout

/-
Tile layouts: descriptors (with their sizes already known to be natural numbers)
and the address arithmetic of include/plasma_descriptor.h.
-/
import Mathlib.Tactic.Ring
import Mathlib.Tactic.Linarith
import Mathlib.Tactic.NormNum

namespace Verif.Layout

/-- Matrix types of a descriptor (`PlasmaGeneral`, `PlasmaGeneralBand`,
`PlasmaUpper`, `PlasmaLower`; include/plasma_types.h). -/
inductive MType | general | band | upper | lower
  deriving DecidableEq, Repr

/-- `plasma_desc_t` (include/plasma_descriptor.h:40-76) with non-negative fields.
Simplifications: the data pointer and the precision are left out (offsets are in
elements), `int`/`size_t` are unbounded naturals. `control/descriptor.c` over `ℤ`,
with negative and zero arguments, is modelled in `Verif.Desc`. -/
structure Desc where
  type : MType
  mb : Nat
  nb : Nat
  gm : Nat
  gn : Nat
  A21 : Nat
  A12 : Nat
  A22 : Nat
  i : Nat
  j : Nat
  m : Nat
  n : Nat
  mt : Nat
  nt : Nat
  kl : Nat
  ku : Nat
  klt : Nat
  kut : Nat
  deriving DecidableEq, Repr

/-- `(m == 0) ? 0 : (i+m-1)/mb - i/mb + 1` (control/descriptor.c:165-166). -/
def ntiles (i m mb : Nat) : Nat := if m = 0 then 0 else (i + m - 1) / mb - i / mb + 1

/-- `plasma_desc_general_init` (control/descriptor.c:134-175). -/
def general (mb nb lm ln i j m n : Nat) : Desc where
  type := .general
  mb := mb
  nb := nb
  gm := lm
  gn := ln
  A21 := (lm - lm % mb) * (ln - ln % nb)
  A12 := (lm % mb) * (ln - ln % nb) + (lm - lm % mb) * (ln - ln % nb)
  A22 := (lm - lm % mb) * (ln % nb) +
    ((lm % mb) * (ln - ln % nb) + (lm - lm % mb) * (ln - ln % nb))
  i := i
  j := j
  m := m
  n := n
  mt := ntiles i m mb
  nt := ntiles j n nb
  kl := m - 1
  ku := n - 1
  klt := ntiles i m mb
  kut := ntiles j n nb

namespace Desc

/-- `plasma_tile_addr_general`, as an element offset (include/plasma_descriptor.h:93-115). -/
def tileGeneral (A : Desc) (m n : Nat) : Nat :=
  let mm := m + A.i / A.mb
  let nn := n + A.j / A.nb
  let lm1 := A.gm / A.mb
  let ln1 := A.gn / A.nb
  if mm < lm1 then
    if nn < ln1 then A.mb * A.nb * (mm + lm1 * nn)
    else A.A12 + A.mb * (A.gn % A.nb) * mm
  else
    if nn < ln1 then A.A21 + A.nb * (A.gm % A.mb) * nn
    else A.A22

/-- `plasma_tile_addr_triangle`, as an element offset (include/plasma_descriptor.h:118-151). -/
def tileTriangle (A : Desc) (m n : Nat) : Nat :=
  let mm := m + A.i / A.mb
  let nn := n + A.j / A.nb
  let lm1 := A.gm / A.mb
  let ln1 := A.gn / A.nb
  if mm < lm1 then
    if nn < ln1 then
      if A.type = .upper then A.mb * A.nb * (mm + (nn * (nn + 1)) / 2)
      else A.mb * A.nb * ((mm - nn) + (nn * (2 * lm1 + 1 - nn)) / 2)
    else A.A12 + A.mb * (A.gn % A.nb) * mm
  else
    if nn < ln1 then A.A21 + A.nb * (A.gm % A.mb) * nn
    else A.A22

/-- `plasma_tile_addr_general_band` (include/plasma_descriptor.h:154-157).
`(kut-1)+m-n` is written with the truncated subtraction last; it is used only
when `n ≤ (kut-1)+m`, i.e. inside the band. -/
def tileBand (A : Desc) (m n : Nat) : Nat := A.tileGeneral ((A.kut - 1) + m - n) n

/-- `plasma_tile_addr` (include/plasma_descriptor.h:160-175). -/
def tile (A : Desc) (m n : Nat) : Nat :=
  match A.type with
  | .general => A.tileGeneral m n
  | .band => A.tileBand m n
  | .upper => A.tileTriangle m n
  | .lower => A.tileTriangle m n

/-- `plasma_tile_mmain` (include/plasma_descriptor.h:182-193). -/
def mmain (A : Desc) (k : Nat) : Nat :=
  if A.type = .band then A.mb
  else if A.i / A.mb + k < A.gm / A.mb then A.mb else A.gm % A.mb

/-- `plasma_tile_nmain` (include/plasma_descriptor.h:200-206). -/
def nmain (A : Desc) (k : Nat) : Nat :=
  if A.j / A.nb + k < A.gn / A.nb then A.nb else A.gn % A.nb

/-- `plasma_tile_mview` (include/plasma_descriptor.h:214-223); `k < mt-1` is over
`int`, hence `k + 1 < mt`. -/
def mview (A : Desc) (k : Nat) : Nat :=
  if k + 1 < A.mt then A.mb
  else if (A.i + A.m) % A.mb = 0 then A.mb else (A.i + A.m) % A.mb

/-- `plasma_tile_nview` (include/plasma_descriptor.h:231-240). -/
def nview (A : Desc) (k : Nat) : Nat :=
  if k + 1 < A.nt then A.nb
  else if (A.j + A.n) % A.nb = 0 then A.nb else (A.j + A.n) % A.nb

/-- `plasma_tile_mmain_band` (include/plasma_descriptor.h:243-246). -/
def mmainBand (A : Desc) (m n : Nat) : Nat := A.mmain ((A.kut - 1) + m - n)

/-- Leading dimension handed to the kernels for tile `(m, n)`: `plasma_tile_mmain`
(or `_band` for band descriptors), e.g. compute/pzgemm.c:54, compute/pzpbtrf.c:47. -/
def ld (A : Desc) (m n : Nat) : Nat :=
  if A.type = .band then A.mmainBand m n else A.mmain m

/-- Offset of element `(i, j)` of tile `(m, n)`: column-major inside the tile. -/
def off (A : Desc) (m n i j : Nat) : Nat := A.tile m n + i + j * A.ld m n

end Desc

/-! ### Packing arithmetic -/

theorem pack_lt {i j p q : Nat} (hi : i < p) (hj : j < q) : i + p * j < p * q := by
  calc i + p * j < p + p * j := by omega
    _ = p * (j + 1) := by ring
    _ ≤ p * q := Nat.mul_le_mul_left _ hj

theorem pack_inj {i j i' j' p : Nat} (hi : i < p) (hi' : i' < p) (h : i + p * j = i' + p * j') :
    i = i' ∧ j = j' := by
  have h1 : (i + p * j) % p = i := by rw [Nat.add_mul_mod_self_left, Nat.mod_eq_of_lt hi]
  have h2 : (i' + p * j') % p = i' := by rw [Nat.add_mul_mod_self_left, Nat.mod_eq_of_lt hi']
  have hp : 0 < p := by omega
  have h3 : (i + p * j) / p = j := by
    rw [Nat.add_mul_div_left _ _ hp, Nat.div_eq_of_lt hi, Nat.zero_add]
  have h4 : (i' + p * j') / p = j' := by
    rw [Nat.add_mul_div_left _ _ hp, Nat.div_eq_of_lt hi', Nat.zero_add]
  constructor
  · rw [← h1, ← h2, h]
  · rw [← h3, ← h4, h]

theorem pack_surj {p q x : Nat} (h : x < p * q) : ∃ i j, i < p ∧ j < q ∧ x = i + p * j := by
  have hp : 0 < p := by
    rcases Nat.eq_zero_or_pos p with h0 | h0
    · simp [h0] at h
    · exact h0
  refine ⟨x % p, x / p, Nat.mod_lt _ hp, ?_, (Nat.mod_add_div x p).symm⟩
  exact Nat.div_lt_of_lt_mul h

/-- `p*q` box inside box number `t` of `T` boxes. -/
theorem pack3_lt {i j t p q T : Nat} (hi : i < p) (hj : j < q) (ht : t < T) :
    p * q * t + i + j * p < p * q * T := by
  have := pack_lt (pack_lt hi hj) ht
  calc p * q * t + i + j * p = (i + p * j) + p * q * t := by ring
    _ < _ := this

theorem pack3_inj {i j t i' j' t' p q : Nat} (hi : i < p) (hj : j < q) (hi' : i' < p) (hj' : j' < q)
    (h : p * q * t + i + j * p = p * q * t' + i' + j' * p) : i = i' ∧ j = j' ∧ t = t' := by
  have h' : (i + p * j) + p * q * t = (i' + p * j') + p * q * t' := by linarith
  obtain ⟨h1, h2⟩ := pack_inj (pack_lt hi hj) (pack_lt hi' hj') h'
  obtain ⟨h3, h4⟩ := pack_inj hi hi' h1
  exact ⟨h3, h4, h2⟩

theorem pack3_surj {p q T x : Nat} (h : x < p * q * T) :
    ∃ i j t, i < p ∧ j < q ∧ t < T ∧ x = p * q * t + i + j * p := by
  obtain ⟨y, t, hy, ht, rfl⟩ := pack_surj h
  obtain ⟨i, j, hi, hj, rfl⟩ := pack_surj hy
  exact ⟨i, j, t, hi, hj, ht, by ring⟩

/-- Number of tiles of size `b` needed for `m` elements. -/
def ceilDiv (m b : Nat) : Nat := (m + b - 1) / b

theorem ntiles_zero (m b : Nat) (hb : 0 < b) : ntiles 0 m b = ceilDiv m b := by
  unfold ntiles ceilDiv
  split
  · subst m; symm; apply Nat.div_eq_of_lt; omega
  · rw [show m + b - 1 = (m - 1) + b by omega, Nat.add_div_right _ hb]
    simp

theorem lt_ceilDiv {m b k : Nat} (hb : 0 < b) : k < ceilDiv m b ↔ k * b < m := by
  unfold ceilDiv
  rw [Nat.lt_iff_add_one_le, Nat.le_div_iff_mul_le hb]
  constructor
  · intro h
    have : (k+1) * b = k * b + b := by ring
    omega
  · intro h
    have : (k+1) * b = k * b + b := by ring
    omega

/-- Rows in tile row `k` of an `m`-row matrix tiled by `b`. -/
def tdim (m b k : Nat) : Nat := min b (m - k * b)

theorem mod_eq_sub_mul {m b : Nat} : m % b = m - (m / b) * b := by
  have := Nat.div_add_mod m b
  rw [Nat.mul_comm] at this
  omega

theorem tdim_eq_main {m b k : Nat} (hb : 0 < b) (hk : k * b < m) :
    (if k < m / b then b else m % b) = tdim m b k := by
  unfold tdim
  split
  · rename_i h
    have : (k + 1) * b ≤ m := by
      have := Nat.div_mul_le_self m b
      calc (k+1) * b ≤ (m / b) * b := Nat.mul_le_mul_right _ h
        _ ≤ m := this
    have h2 : (k+1) * b = k * b + b := by ring
    omega
  · rename_i h
    have h1 : k = m / b := by
      have : k ≤ m / b := (Nat.le_div_iff_mul_le hb).mpr (by omega)
      omega
    have := Nat.mod_lt m hb
    rw [mod_eq_sub_mul] at *
    subst h1
    omega

theorem tdim_eq_view {m b k : Nat} (hb : 0 < b) (hk : k * b < m) :
    (if k + 1 < ceilDiv m b then b else if m % b = 0 then b else m % b) = tdim m b k := by
  have hc := lt_ceilDiv (m := m) (k := k + 1) hb
  have h2 : (k+1) * b = k * b + b := by ring
  unfold tdim
  split
  · rename_i h
    have := hc.mp h
    omega
  · rename_i h
    have h3 : ¬ (k + 1) * b < m := fun h' => h (hc.mpr h')
    have h4 : m ≤ k * b + b := by omega
    split
    · rename_i h0
      obtain ⟨q, rfl⟩ := Nat.dvd_of_mod_eq_zero h0
      have : k < q := by
        by_contra hcon
        have : b * q ≤ b * k := Nat.mul_le_mul_left _ (by omega)
        rw [Nat.mul_comm b k] at this
        omega
      have : b * (k+1) ≤ b * q := Nat.mul_le_mul_left _ this
      have h5 : b * (k+1) = k * b + b := by ring
      omega
    · rename_i h0
      have hlt : m - k * b < b := by
        by_contra hcon
        have : m = (k+1) * b := by omega
        rw [this] at h0
        simp at h0
      have : m % b = m - k * b := by
        have he : m = (m - k * b) + k * b := by omega
        conv_lhs => rw [he]
        rw [Nat.add_mul_mod_self_right, Nat.mod_eq_of_lt hlt]
      omega

theorem tdim_pos {m b k : Nat} (hb : 0 < b) (hk : k * b < m) : 0 < tdim m b k := by
  unfold tdim; omega

theorem tdim_le {m b k : Nat} : tdim m b k ≤ b := by unfold tdim; omega

/-- Global rows and tile coordinates. -/
theorem tdim_row {m b k i : Nat} : i < tdim m b k ↔ i < b ∧ k * b + i < m := by
  unfold tdim; omega

end Verif.Layout

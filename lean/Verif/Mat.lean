/-
Tiled matrices inside a tile store, their global (row, column) view, block sums.
-/
import Verif.Ops
import Verif.LayoutTri
import Mathlib.Algebra.BigOperators.Group.Finset.Basic
import Mathlib.Algebra.BigOperators.Intervals
import Mathlib.Algebra.Star.Basic
import Mathlib.Algebra.Star.BigOperators

namespace Verif.Tile

open Verif.Layout Finset

universe u v

/-- A descriptor passed to a parallel (`plasma_pz*`) function: which allocation it
describes and the descriptor itself. -/
structure TMat (M : Type u) where
  id : M
  d : Desc

namespace TMat
variable {M : Type u}

/-- The macro `A(m, n)` = `plasma_tile_addr(A, m, n)` at tile level: tile `(m, n)` of
the (sub)matrix is tile `(m + i/mb, n + j/nb)` of the allocation
(include/plasma_descriptor.h:95-96). -/
def at' (A : TMat M) (m n : Nat) : M × Nat × Nat := (A.id, m + A.d.i / A.d.mb, n + A.d.j / A.d.nb)

/-- Element `(r, c)` of the (sub)matrix. -/
def el {α : Type v} (A : TMat M) (s : Store (M × Nat × Nat) α) (r c : Nat) : α :=
  s (A.at' (r / A.d.mb) (c / A.d.nb)) (r % A.d.mb) (c % A.d.nb)

theorem at'_id {A : TMat M} {m n : Nat} : (A.at' m n).1 = A.id := rfl

theorem at'_inj {A : TMat M} {m n m' n' : Nat} : A.at' m n = A.at' m' n' ↔ m = m' ∧ n = n' := by
  simp [at', Prod.mk.injEq]

theorem at'_ne {A B : TMat M} (h : A.id ≠ B.id) {m n m' n' : Nat} : A.at' m n ≠ B.at' m' n' := by
  intro he
  exact h (congrArg Prod.fst he)

/-- A descriptor with square tiles of size `b`, aligned to tiles, with the tile
counts set by the create/view functions (control/descriptor.c:165-166,393-394), as
guaranteed by `plasma_desc_check`. -/
structure Al (b : Nat) (A : TMat M) : Prop where
  pos : 0 < b
  mb : A.d.mb = b
  nb : A.d.nb = b
  i : A.d.i % b = 0
  j : A.d.j % b = 0
  mt : A.d.mt = ntiles A.d.i A.d.m b
  nt : A.d.nt = ntiles A.d.j A.d.n b

/-- The matrix made by `plasma_desc_general_create(.., b, b, m, n, 0, 0, m, n, ..)`. -/
def full (id : M) (b m n : Nat) : TMat M := ⟨id, general b b m n 0 0 m n⟩

theorem al_full (id : M) {b : Nat} (hb : 0 < b) (m n : Nat) : (full id b m n).Al b :=
  ⟨hb, rfl, rfl, by simp [full, general], by simp [full, general], rfl, rfl⟩

theorem ntiles_al {b i m : Nat} (hb : 0 < b) (hi : i % b = 0) : ntiles i m b = ceilDiv m b := by
  obtain ⟨q, rfl⟩ := Nat.dvd_of_mod_eq_zero hi
  unfold ntiles ceilDiv
  split
  · subst m; symm; apply Nat.div_eq_of_lt; omega
  · rw [show b * q + m - 1 = b * q + (m - 1) by omega, Nat.mul_add_div hb,
      Nat.mul_div_cancel_left _ hb, show m + b - 1 = (m - 1) + b by omega, Nat.add_div_right _ hb]
    rw [Nat.add_sub_cancel_left]

variable {b : Nat} {A : TMat M}

theorem Al.mt_eq (h : A.Al b) : A.d.mt = ceilDiv A.d.m b := by rw [h.mt, ntiles_al h.pos h.i]
theorem Al.nt_eq (h : A.Al b) : A.d.nt = ceilDiv A.d.n b := by rw [h.nt, ntiles_al h.pos h.j]

theorem Al.lt_mt (h : A.Al b) {k : Nat} : k < A.d.mt ↔ k * b < A.d.m := by
  rw [h.mt_eq, lt_ceilDiv h.pos]
theorem Al.lt_nt (h : A.Al b) {k : Nat} : k < A.d.nt ↔ k * b < A.d.n := by
  rw [h.nt_eq, lt_ceilDiv h.pos]

theorem Al.mview (h : A.Al b) {k : Nat} (hk : k < A.d.mt) : A.d.mview k = tdim A.d.m b k := by
  have hk' := h.lt_mt.mp hk
  rw [← tdim_eq_view h.pos hk']
  have : (A.d.i + A.d.m) % b = A.d.m % b := by
    rw [Nat.add_mod, h.i]; simp
  simp only [Desc.mview, h.mt_eq, h.mb, this]

theorem Al.nview (h : A.Al b) {k : Nat} (hk : k < A.d.nt) : A.d.nview k = tdim A.d.n b k := by
  have hk' := h.lt_nt.mp hk
  rw [← tdim_eq_view h.pos hk']
  have : (A.d.j + A.d.n) % b = A.d.n % b := by
    rw [Nat.add_mod, h.j]; simp
  simp only [Desc.nview, h.nt_eq, h.nb, this]

theorem Al.row_mt (h : A.Al b) {r : Nat} (hr : r < A.d.m) : r / b < A.d.mt := by
  rw [h.lt_mt]; exact lt_of_le_of_lt (Nat.div_mul_le_self r b) hr
theorem Al.col_nt (h : A.Al b) {r : Nat} (hr : r < A.d.n) : r / b < A.d.nt := by
  rw [h.lt_nt]; exact lt_of_le_of_lt (Nat.div_mul_le_self r b) hr

end TMat

theorem mod_lt_tdim {m b r : Nat} (hb : 0 < b) (hr : r < m) : r % b < tdim m b (r / b) := by
  rw [tdim_row]
  refine ⟨Nat.mod_lt _ hb, ?_⟩
  rw [Nat.mul_comm, Nat.div_add_mod]; exact hr

theorem div_of_tile {b t i : Nat} (hi : i < b) : (t * b + i) / b = t := by
  have hb : 0 < b := by omega
  rw [Nat.mul_comm, Nat.mul_add_div hb, Nat.div_eq_of_lt hi]; rfl

theorem mod_of_tile {b t i : Nat} (hi : i < b) : (t * b + i) % b = i := by
  rw [Nat.mul_comm, Nat.mul_add_mod, Nat.mod_eq_of_lt hi]

/-- Element of tile `(m, n)` in global coordinates. -/
theorem TMat.Al.el_tile {M : Type u} {α : Type v} {A : TMat M} {b : Nat} (h : A.Al b)
    (s : Store (M × Nat × Nat) α) {m n i j : Nat} (hi : i < b) (hj : j < b) :
    A.el s (m * b + i) (n * b + j) = s (A.at' m n) i j := by
  simp only [TMat.el, h.mb, h.nb, div_of_tile hi, div_of_tile hj, mod_of_tile hi, mod_of_tile hj]

/-- Sum over an index range done tile by tile. -/
theorem sum_tiles_aux {β : Type v} [AddCommMonoid β] {b k : Nat} (f : Nat → β) (T : Nat) :
    ∑ t ∈ range T, ∑ l ∈ range (tdim k b t), f (t * b + l) = ∑ l ∈ range (min k (T * b)), f l := by
  induction T with
  | zero => simp
  | succ T ih =>
    rw [sum_range_succ, ih]
    have hT : (T + 1) * b = T * b + b := by ring
    have he : min k ((T + 1) * b) = min k (T * b) + tdim k b T := by
      unfold tdim; omega
    rw [he, sum_range_add]
    congr 1
    by_cases hk : T * b ≤ k
    · rw [Nat.min_eq_right hk]
    · have : tdim k b T = 0 := by unfold tdim; omega
      rw [this]; simp

theorem sum_tiles {β : Type v} [AddCommMonoid β] {b k : Nat} (hb : 0 < b) (f : Nat → β) :
    ∑ t ∈ range (ceilDiv k b), ∑ l ∈ range (tdim k b t), f (t * b + l) = ∑ l ∈ range k, f l := by
  rw [sum_tiles_aux]
  congr 2
  apply Nat.min_eq_left
  have := (lt_ceilDiv (m := k) (k := ceilDiv k b) hb).not
  have h2 := this.mp (Nat.lt_irrefl _)
  omega

/-- `PlasmaUpper`, `PlasmaLower` (include/plasma_types.h). -/
inductive Uplo | upper | lower
  deriving DecidableEq, Repr

/-- `(i, j)` belongs to the selected triangle, diagonal included. -/
def inTri (u : Uplo) (i j : Nat) : Prop :=
  match u with
  | .upper => i ≤ j
  | .lower => j ≤ i

instance (u : Uplo) (i j : Nat) : Decidable (inTri u i j) := by
  cases u <;> unfold inTri <;> infer_instance

/-! ### Global matrices operations on functions -/

/-- `PlasmaNoTrans`, `PlasmaTrans`, `PlasmaConjTrans` (include/plasma_types.h). -/
inductive Trans | noTrans | trans | conjTrans
  deriving DecidableEq, Repr

/-- Entry `(i, j)` of `op(A)`. -/
def opE {α : Type v} [Star α] (t : Trans) (A : Nat → Nat → α) (i j : Nat) : α :=
  match t with
  | .noTrans => A i j
  | .trans => A j i
  | .conjTrans => star (A j i)

end Verif.Tile

/-
Model of `plasma_core_zheswp` (core_blas/core_zheswp.c): symmetric interchanges of a Hermitian matrix of which the lower
triangle is stored.
-/
import Verif.LUMath
import Verif.Mat

namespace Verif.Heswp

open Verif.Layout Verif.LU Verif.Tile

set_option linter.unusedSectionVars false

universe v

/-- Exchange of two elements of the matrix, conjugating them if `cj`; `p = q` conjugates one element. -/
structure Sw where
  p : Nat × Nat
  q : Nat × Nat
  cj : Bool
deriving DecidableEq

section
variable {α : Type v} [Star α]

/-- Conjugation on demand. -/
def cjv (cj : Bool) (x : α) : α := if cj then star x else x

/-- Effect of an exchange. -/
def Sw.run (x : Sw) (X : Nat → Nat → α) : Nat → Nat → α := fun r c =>
  if (r, c) = x.p then cjv x.cj (X x.q.1 x.q.2) else if (r, c) = x.q then cjv x.cj (X x.p.1 x.p.2) else X r c

/-- Several exchanges one after the other. -/
def runAll (L : List Sw) (X : Nat → Nat → α) : Nat → Nat → α := L.foldl (fun X x => x.run X) X

end

/-- `plasma_tile_mview` of a matrix with `n` rows that is not a submatrix (include/plasma_descriptor.h:214-223). -/
def hmv (n b k : Nat) : Nat := if k + 1 < ceilDiv n b then b else if n % b = 0 then b else n % b

/-- Rows of previous columns, by rank 0 (core_blas/core_zheswp.c:81-85).  Element `(i, j)` of tile `(m, k)` is element
`(m*b+i, k*b+j)` of the matrix. -/
def pRows (b lo rank p1 p2 : Nat) : List Sw :=
  if lo < p1 ∧ rank = 0 then
    (List.range (p1 - lo)).map fun t => ⟨(p1 / b * b + p1 % b, p1 / b * b + t), (p2 / b * b + p2 % b, p1 / b * b + t), false⟩
  else []

/-- Columns `p1` and `p2` below `p2` in its tile (core_blas/core_zheswp.c:88-94). -/
def pCol (n b nt rank p1 p2 : Nat) : List Sw :=
  if p2 % b + 1 < hmv n b ((p2 + 1) / b) ∧ rank = 1 % nt then
    (List.range (hmv n b ((p2 + 1) / b) - (p2 % b + 1))).map fun t =>
      ⟨((p2 + 1) / b * b + (p2 + 1) % b + t, p1 / b * b + p1 % b), ((p2 + 1) / b * b + (p2 + 1) % b + t, p2 / b * b + p2 % b), false⟩
  else []

/-- `ell`: tile rows per rank; the code computes it in floating point, exact here (core_blas/core_zheswp.c:95). -/
def ell (n b nt p1 : Nat) : Nat := ceilDiv (ceilDiv n b - (p1 / b + 1)) nt

/-- `k_start` (core_blas/core_zheswp.c:96). -/
def kStart (n b nt rank p1 : Nat) : Nat := p1 / b + 1 + rank * ell n b nt p1

/-- `k_end` (core_blas/core_zheswp.c:97). -/
def kEnd (n b nt rank p1 : Nat) : Nat := min (kStart n b nt rank p1 + ell n b nt p1) (ceilDiv n b)

/-- Columns `p1` and `p2` in the tiles below (core_blas/core_zheswp.c:98-104). -/
def pCols (n b nt rank p1 p2 : Nat) : List Sw :=
  (List.range' (max (p2 / b + 1) (kStart n b nt rank p1)) (kEnd n b nt rank p1 - max (p2 / b + 1) (kStart n b nt rank p1))).flatMap
    fun k => (List.range (hmv n b k)).map fun t =>
      ⟨(k * b + t, p1 / b * b + p1 % b), (k * b + t, p2 / b * b + p2 % b), false⟩

/-- Column `p1` against row `p2` inside the tile of `p1` (core_blas/core_zheswp.c:107-116).  `zlacgv` of both vectors and
`zswap` are taken together, element by element. -/
def pSym (n b lo nt rank p1 p2 : Nat) : List Sw :=
  if p1 % b + 1 < min (hmv n b (p1 / b)) (p2 - lo) ∧ rank = 2 % nt then
    (List.range (min (hmv n b (p1 / b)) (p2 - lo) - (p1 % b + 1))).map fun t =>
      ⟨((p1 + 1) / b * b + (p1 + 1) % b + t, p1 / b * b + p1 % b), (p2 / b * b + p2 % b, (p1 + 1) / b * b + (p1 + 1) % b + t), true⟩
  else []

/-- Column `p1` against row `p2` in the tiles below (core_blas/core_zheswp.c:117-127). -/
def pSyms (n b nt rank p1 p2 : Nat) : List Sw :=
  (List.range' (kStart n b nt rank p1) (min (kEnd n b nt rank p1) (p2 / b + 1) - kStart n b nt rank p1)).flatMap
    fun k => (List.range (min (hmv n b k) (p2 - k * b))).map fun t =>
      ⟨(k * b + t, p1 / b * b + p1 % b), (p2 / b * b + p2 % b, k * b + t), true⟩

/-- The corner element and the diagonal (core_blas/core_zheswp.c:129-138). -/
def pDiag (b nt rank p1 p2 : Nat) : List Sw :=
  if rank = 3 % nt then
    [⟨(p2 / b * b + p2 % b, p1 / b * b + p1 % b), (p2 / b * b + p2 % b, p1 / b * b + p1 % b), true⟩,
     ⟨(p1 / b * b + p1 % b, p1 / b * b + p1 % b), (p2 / b * b + p2 % b, p2 / b * b + p2 % b), false⟩]
  else []

/-- What one rank does for one pivot: rows and columns `p1 = i`, `p2 = ipiv[i]-1` are interchanged; `lo = k1-1`
(core_blas/core_zheswp.c:62-140).  Nothing is done if they are equal. -/
def heRank (n b lo nt p1 p2 rank : Nat) : List Sw :=
  if p2 = p1 then [] else
  pRows b lo rank p1 p2 ++ pCol n b nt rank p1 p2 ++ pCols n b nt rank p1 p2 ++ pSym n b lo nt rank p1 p2 ++
    pSyms n b nt rank p1 p2 ++ pDiag b nt rank p1 p2

/-- What all ranks do for one pivot, between two barriers. -/
def heAll (n b lo nt p1 p2 : Nat) : List Sw := (List.range nt).flatMap fun rank => heRank n b lo nt p1 p2 rank

/-! ### Positions -/

section
variable {n b lo nt p1 p2 rank : Nat}

theorem hmv_eq (hb : 0 < b) {k : Nat} (hk : k < ceilDiv n b) : hmv n b k = tdim n b k := by
  unfold hmv
  exact tdim_eq_view hb ((lt_ceilDiv hb).mp hk)

theorem dm (p b : Nat) : p / b * b + p % b = p := by rw [Nat.mul_comm]; exact Nat.div_add_mod p b

theorem mem_pRows (hlo : p1 / b * b = lo) {x : Sw} : x ∈ pRows b lo rank p1 p2 ↔
    rank = 0 ∧ ∃ c, lo ≤ c ∧ c < p1 ∧ x = ⟨(p1, c), (p2, c), false⟩ := by
  unfold pRows
  rw [dm, dm, hlo]
  by_cases h : lo < p1 ∧ rank = 0
  · rw [if_pos h, List.mem_map]
    constructor
    · rintro ⟨t, ht, rfl⟩
      rw [List.mem_range] at ht
      exact ⟨h.2, lo + t, by omega, by omega, rfl⟩
    · rintro ⟨-, c, h1, h2, rfl⟩
      exact ⟨c - lo, by rw [List.mem_range]; omega, by rw [show lo + (c - lo) = c by omega]⟩
  · rw [if_neg h]
    constructor
    · intro hh; cases hh
    · rintro ⟨h1, c, h2, h3, -⟩
      exact absurd ⟨by omega, h1⟩ h

/-- The rows of `p2`'s tile. -/
theorem below (hb : 0 < b) (h2 : p2 < n) {r : Nat} :
    (p2 % b + 1 < hmv n b ((p2 + 1) / b) ∧ p2 < r ∧ r < p2 + 1 + (hmv n b ((p2 + 1) / b) - (p2 % b + 1))) ↔
      p2 < r ∧ r < n ∧ r / b = p2 / b := by
  have e := dm p2 b
  have hm := Nat.mod_lt p2 hb
  by_cases hx : p2 % b + 1 = b
  · have e1 : (p2 + 1) = (p2 / b + 1) * b := by rw [Nat.add_mul]; omega
    have hle : ∀ k, hmv n b k ≤ b := by
      intro k; unfold hmv
      split_ifs <;> first | omega | exact (Nat.mod_lt _ hb).le
    have := hle ((p2 + 1) / b)
    constructor
    · rintro ⟨h, -⟩; omega
    · rintro ⟨h3, h4, h5⟩
      have := Nat.mod_lt r hb
      have e6 := dm r b
      rw [h5] at e6
      omega
  · have e1 : (p2 + 1) / b = p2 / b := by
      rw [show p2 + 1 = p2 / b * b + (p2 % b + 1) by omega]
      exact div_of_tile (by omega)
    have hk : p2 / b < ceilDiv n b := (lt_ceilDiv hb).mpr (by omega)
    rw [e1, hmv_eq hb hk]
    unfold tdim
    constructor
    · rintro ⟨h3, h4, h5⟩
      refine ⟨h4, by omega, ?_⟩
      have : r = p2 / b * b + (r - p2 / b * b) := by omega
      rw [this]
      exact div_of_tile (by omega)
    · rintro ⟨h3, h4, h5⟩
      have e6 := dm r b
      have := Nat.mod_lt r hb
      rw [h5] at e6
      omega

theorem mem_pCol (hb : 0 < b) (h2 : p2 < n) {x : Sw} : x ∈ pCol n b nt rank p1 p2 ↔
    rank = 1 % nt ∧ ∃ r, p2 < r ∧ r < n ∧ r / b = p2 / b ∧ x = ⟨(r, p1), (r, p2), false⟩ := by
  unfold pCol
  rw [dm, dm, dm]
  by_cases h : p2 % b + 1 < hmv n b ((p2 + 1) / b) ∧ rank = 1 % nt
  · rw [if_pos h, List.mem_map]
    constructor
    · rintro ⟨t, ht, rfl⟩
      rw [List.mem_range] at ht
      obtain ⟨a1, a2, a3⟩ := (below (r := p2 + 1 + t) hb h2).mp ⟨h.1, by omega, by omega⟩
      exact ⟨h.2, p2 + 1 + t, a1, a2, a3, rfl⟩
    · rintro ⟨-, r, h3, h4, h5, rfl⟩
      obtain ⟨a1, a2, a3⟩ := (below hb h2).mpr ⟨h3, h4, h5⟩
      exact ⟨r - (p2 + 1), by rw [List.mem_range]; omega, by rw [show p2 + 1 + (r - (p2 + 1)) = r by omega]⟩
  · rw [if_neg h]
    constructor
    · intro hh; cases hh
    · rintro ⟨h3, r, h4, h5, h6, -⟩
      exact absurd ⟨((below hb h2).mpr ⟨h4, h5, h6⟩).1, h3⟩ h

theorem mem_pCols (hb : 0 < b) {x : Sw} : x ∈ pCols n b nt rank p1 p2 ↔
    ∃ r, p2 / b < r / b ∧ r < n ∧ kStart n b nt rank p1 ≤ r / b ∧ r / b < kEnd n b nt rank p1 ∧ x = ⟨(r, p1), (r, p2), false⟩ := by
  unfold pCols
  rw [dm, dm, List.mem_flatMap]
  constructor
  · rintro ⟨k, hk, hx⟩
    rw [List.mem_range'_1] at hk
    rw [List.mem_map] at hx
    obtain ⟨t, ht, rfl⟩ := hx
    rw [List.mem_range] at ht
    have hkm : k < ceilDiv n b := by have : kEnd n b nt rank p1 ≤ ceilDiv n b := by unfold kEnd; omega
                                     omega
    rw [hmv_eq hb hkm, tdim_row] at ht
    refine ⟨k * b + t, ?_, ht.2, ?_, ?_, rfl⟩ <;> rw [div_of_tile ht.1] <;> omega
  · rintro ⟨r, h1, h2, h3, h4, rfl⟩
    have hkm : r / b < ceilDiv n b := by have : kEnd n b nt rank p1 ≤ ceilDiv n b := by unfold kEnd; omega
                                         omega
    refine ⟨r / b, by rw [List.mem_range'_1]; omega, ?_⟩
    rw [List.mem_map]
    refine ⟨r % b, ?_, by rw [dm]⟩
    rw [List.mem_range, hmv_eq hb hkm, tdim_row, dm]
    exact ⟨Nat.mod_lt _ hb, h2⟩

theorem mem_pSym (hb : 0 < b) (hlo : p1 / b * b = lo) (h12 : p1 < p2) (h2 : p2 < n) {x : Sw} : x ∈ pSym n b lo nt rank p1 p2 ↔
    rank = 2 % nt ∧ ∃ r, p1 < r ∧ r < p2 ∧ r / b = p1 / b ∧ x = ⟨(r, p1), (p2, r), true⟩ := by
  unfold pSym
  rw [dm, dm, dm]
  have e := dm p1 b
  have hm := Nat.mod_lt p1 hb
  have hk : p1 / b < ceilDiv n b := (lt_ceilDiv hb).mpr (by omega)
  rw [hmv_eq hb hk]
  have key : ∀ r, (p1 < r ∧ r < p1 + 1 + (min (tdim n b (p1 / b)) (p2 - lo) - (p1 % b + 1)) ∧
      p1 % b + 1 < min (tdim n b (p1 / b)) (p2 - lo)) ↔ p1 < r ∧ r < p2 ∧ r / b = p1 / b := by
    intro r
    unfold tdim
    rw [hlo] at e ⊢
    constructor
    · rintro ⟨h3, h4, h5⟩
      refine ⟨h3, by omega, ?_⟩
      rw [show r = p1 / b * b + (r - p1 / b * b) by omega]
      exact div_of_tile (by omega)
    · rintro ⟨h3, h4, h5⟩
      have e6 := dm r b
      have := Nat.mod_lt r hb
      rw [h5, hlo] at e6
      omega
  by_cases h : p1 % b + 1 < min (tdim n b (p1 / b)) (p2 - lo) ∧ rank = 2 % nt
  · rw [if_pos h, List.mem_map]
    constructor
    · rintro ⟨t, ht, rfl⟩
      rw [List.mem_range] at ht
      obtain ⟨a1, a2, a3⟩ := (key (p1 + 1 + t)).mp ⟨by omega, by omega, h.1⟩
      exact ⟨h.2, p1 + 1 + t, a1, a2, a3, rfl⟩
    · rintro ⟨-, r, h3, h4, h5, rfl⟩
      obtain ⟨a1, a2, a3⟩ := (key r).mpr ⟨h3, h4, h5⟩
      exact ⟨r - (p1 + 1), by rw [List.mem_range]; omega, by rw [show p1 + 1 + (r - (p1 + 1)) = r by omega]⟩
  · rw [if_neg h]
    constructor
    · intro hh; cases hh
    · rintro ⟨h3, r, h4, h5, h6, -⟩
      exact absurd ⟨((key r).mpr ⟨h4, h5, h6⟩).2.2, h3⟩ h

theorem mem_pSyms (hb : 0 < b) (h2 : p2 < n) {x : Sw} : x ∈ pSyms n b nt rank p1 p2 ↔
    ∃ r, r < p2 ∧ kStart n b nt rank p1 ≤ r / b ∧ r / b < kEnd n b nt rank p1 ∧ x = ⟨(r, p1), (p2, r), true⟩ := by
  unfold pSyms
  rw [dm, dm, List.mem_flatMap]
  constructor
  · rintro ⟨k, hk, hx⟩
    rw [List.mem_range'_1] at hk
    rw [List.mem_map] at hx
    obtain ⟨t, ht, rfl⟩ := hx
    rw [List.mem_range] at ht
    have hkm : k < ceilDiv n b := by have : kEnd n b nt rank p1 ≤ ceilDiv n b := by unfold kEnd; omega
                                     omega
    rw [hmv_eq hb hkm] at ht
    have ht' : t < tdim n b k := by omega
    rw [tdim_row] at ht'
    refine ⟨k * b + t, by omega, ?_, ?_, rfl⟩ <;> rw [div_of_tile ht'.1] <;> omega
  · rintro ⟨r, h1, h3, h4, rfl⟩
    have hkm : r / b < ceilDiv n b := by have : kEnd n b nt rank p1 ≤ ceilDiv n b := by unfold kEnd; omega
                                         omega
    have := Nat.div_le_div_right (c := b) (show r ≤ p2 by omega)
    have e := dm r b
    refine ⟨r / b, by rw [List.mem_range'_1]; omega, ?_⟩
    rw [List.mem_map]
    refine ⟨r % b, ?_, by rw [dm]⟩
    have : r % b < tdim n b (r / b) := by
      rw [tdim_row, dm]
      exact ⟨Nat.mod_lt _ hb, by omega⟩
    rw [List.mem_range, hmv_eq hb hkm]
    omega

theorem mem_pDiag {x : Sw} : x ∈ pDiag b nt rank p1 p2 ↔
    rank = 3 % nt ∧ (x = ⟨(p2, p1), (p2, p1), true⟩ ∨ x = ⟨(p1, p1), (p2, p2), false⟩) := by
  unfold pDiag
  rw [dm, dm]
  by_cases h : rank = 3 % nt
  · rw [if_pos h]; simp [h]
  · rw [if_neg h]; simp [h]

/-- The exchange that touches a position. -/
def canon (n lo p1 p2 : Nat) (y : Nat × Nat) : Option Sw :=
  if ¬ (lo ≤ y.2 ∧ y.2 ≤ y.1 ∧ y.1 < n) then none
  else if y.2 < p1 then (if y.1 = p1 ∨ y.1 = p2 then some ⟨(p1, y.2), (p2, y.2), false⟩ else none)
  else if y.2 = p1 then
    (if y.1 = p1 then some ⟨(p1, p1), (p2, p2), false⟩
     else if y.1 < p2 then some ⟨(y.1, p1), (p2, y.1), true⟩
     else if y.1 = p2 then some ⟨(p2, p1), (p2, p1), true⟩
     else some ⟨(y.1, p1), (y.1, p2), false⟩)
  else if y.2 < p2 then (if y.1 = p2 then some ⟨(y.2, p1), (p2, y.2), true⟩ else none)
  else if y.2 = p2 then
    (if y.1 = p2 then some ⟨(p1, p1), (p2, p2), false⟩ else some ⟨(y.1, p1), (y.1, p2), false⟩)
  else none

/-- Everything a rank does, in terms of the matrix. -/
theorem mem_heRank (hb : 0 < b) (hlo : p1 / b * b = lo) (h12 : p1 < p2) (h2 : p2 < n) {x : Sw} :
    x ∈ heRank n b lo nt p1 p2 rank ↔
      (rank = 0 ∧ ∃ c, lo ≤ c ∧ c < p1 ∧ x = ⟨(p1, c), (p2, c), false⟩) ∨
      (∃ r, p2 < r ∧ r < n ∧ ((r / b = p2 / b ∧ rank = 1 % nt) ∨
        (p2 / b < r / b ∧ kStart n b nt rank p1 ≤ r / b ∧ r / b < kEnd n b nt rank p1)) ∧ x = ⟨(r, p1), (r, p2), false⟩) ∨
      (∃ r, p1 < r ∧ r < p2 ∧ ((r / b = p1 / b ∧ rank = 2 % nt) ∨
        (kStart n b nt rank p1 ≤ r / b ∧ r / b < kEnd n b nt rank p1)) ∧ x = ⟨(r, p1), (p2, r), true⟩) ∨
      (rank = 3 % nt ∧ (x = ⟨(p2, p1), (p2, p1), true⟩ ∨ x = ⟨(p1, p1), (p2, p2), false⟩)) := by
  have hs : p1 / b < kStart n b nt rank p1 := by unfold kStart; omega
  unfold heRank
  rw [if_neg (by omega)]
  simp only [List.mem_append]
  rw [mem_pRows hlo, mem_pCol hb h2, mem_pCols hb, mem_pSym hb hlo h12 h2, mem_pSyms hb h2, mem_pDiag]
  constructor
  · rintro (((((h | ⟨h1, r, h3, h4, h5, h6⟩) | ⟨r, h1, h3, h4, h5, h6⟩) | ⟨h1, r, h3, h4, h5, h6⟩) | ⟨r, h1, h3, h4, h6⟩) | h)
    · exact Or.inl h
    · exact Or.inr (Or.inl ⟨r, h3, h4, Or.inl ⟨h5, h1⟩, h6⟩)
    · refine Or.inr (Or.inl ⟨r, ?_, h3, Or.inr ⟨h1, h4, h5⟩, h6⟩)
      by_contra hc
      have := Nat.div_le_div_right (c := b) (show r ≤ p2 by omega)
      omega
    · exact Or.inr (Or.inr (Or.inl ⟨r, h3, h4, Or.inl ⟨h5, h1⟩, h6⟩))
    · refine Or.inr (Or.inr (Or.inl ⟨r, ?_, h1, Or.inr ⟨h3, h4⟩, h6⟩))
      by_contra hc
      have := Nat.div_le_div_right (c := b) (show r ≤ p1 by omega)
      omega
    · exact Or.inr (Or.inr (Or.inr h))
  · rintro (h | ⟨r, h3, h4, (⟨h5, h1⟩ | ⟨h1, h5, h6⟩), h7⟩ | ⟨r, h3, h4, (⟨h5, h1⟩ | ⟨h5, h6⟩), h7⟩ | h)
    · exact Or.inl (Or.inl (Or.inl (Or.inl (Or.inl h))))
    · exact Or.inl (Or.inl (Or.inl (Or.inl (Or.inr ⟨h1, r, h3, h4, h5, h7⟩))))
    · exact Or.inl (Or.inl (Or.inl (Or.inr ⟨r, h1, h4, h5, h6, h7⟩)))
    · exact Or.inl (Or.inl (Or.inr ⟨h1, r, h3, h4, h5, h7⟩))
    · exact Or.inl (Or.inr ⟨r, h4, h5, h6, h7⟩)
    · exact Or.inr h

/-- A tile row below the one of `p1` belongs to one rank. -/
theorem rank_of (hnt : 0 < nt) {k : Nat} (h1 : p1 / b < k) (h2 : k < ceilDiv n b) :
    ∃ rank, rank < nt ∧ kStart n b nt rank p1 ≤ k ∧ k < kEnd n b nt rank p1 := by
  set e := ell n b nt p1 with he
  set w := ceilDiv n b - (p1 / b + 1) with hw
  have hew : ∀ q, q < e ↔ q * nt < w := fun q => by rw [he]; exact lt_ceilDiv hnt
  have he0 : 0 < e := (hew 0).mpr (by omega)
  have hle : w ≤ e * nt := by
    by_contra hc
    have := (hew e).mpr (by omega)
    omega
  set d := k - (p1 / b + 1) with hd
  have hdm := dm d e
  have hml := Nat.mod_lt d he0
  refine ⟨d / e, ?_, ?_, ?_⟩
  · rw [Nat.div_lt_iff_lt_mul he0, Nat.mul_comm]; omega
  · unfold kStart; rw [← he]; omega
  · unfold kEnd kStart; rw [← he]; omega

theorem rank_uniq {k r r' : Nat} (h1 : kStart n b nt r p1 ≤ k) (h2 : k < kEnd n b nt r p1)
    (h1' : kStart n b nt r' p1 ≤ k) (h2' : k < kEnd n b nt r' p1) : r = r' := by
  unfold kEnd at h2 h2'
  unfold kStart at *
  set e := ell n b nt p1
  by_contra hne
  rcases Nat.lt_or_gt_of_ne hne with h | h
  · have := Nat.mul_le_mul_right e (show r + 1 ≤ r' from h)
    rw [Nat.add_mul] at this
    omega
  · have := Nat.mul_le_mul_right e (show r' + 1 ≤ r from h)
    rw [Nat.add_mul] at this
    omega

theorem mem_canon (hb : 0 < b) (hlo : p1 / b * b = lo) (h12 : p1 < p2) (h2 : p2 < n) {x : Sw}
    (hx : x ∈ heAll n b lo nt p1 p2) : canon n lo p1 p2 x.p = some x ∧ canon n lo p1 p2 x.q = some x := by
  have hl : lo ≤ p1 := by rw [← hlo]; exact Nat.div_mul_le_self _ _
  unfold heAll at hx
  rw [List.mem_flatMap] at hx
  obtain ⟨rank, -, hx⟩ := hx
  rw [mem_heRank hb hlo h12 h2] at hx
  rcases hx with ⟨-, c, h3, h4, rfl⟩ | ⟨r, h3, h4, -, rfl⟩ | ⟨r, h3, h4, -, rfl⟩ | ⟨-, rfl | rfl⟩ <;> unfold canon <;>
    constructor <;> simp only <;> split_ifs <;> first | rfl | (exfalso; omega) | (exfalso; simp_all)

theorem canon_mem (hb : 0 < b) (hnt : 0 < nt) (hlo : p1 / b * b = lo) (h12 : p1 < p2) (h2 : p2 < n) {x : Sw} {y : Nat × Nat}
    (hx : canon n lo p1 p2 y = some x) : x ∈ heAll n b lo nt p1 p2 := by
  have hl : lo ≤ p1 := by rw [← hlo]; exact Nat.div_mul_le_self _ _
  unfold heAll
  rw [List.mem_flatMap]
  have hcol : ∀ r, p2 < r → r < n → ∃ rank, rank ∈ List.range nt ∧
      (⟨(r, p1), (r, p2), false⟩ : Sw) ∈ heRank n b lo nt p1 p2 rank := by
    intro r h3 h4
    have hle := Nat.div_le_div_right (c := b) (show p2 ≤ r by omega)
    by_cases h5 : r / b = p2 / b
    · exact ⟨1 % nt, List.mem_range.mpr (Nat.mod_lt _ hnt),
        (mem_heRank hb hlo h12 h2).mpr (Or.inr (Or.inl ⟨r, h3, h4, Or.inl ⟨h5, rfl⟩, rfl⟩))⟩
    · have hle' := Nat.div_le_div_right (c := b) (show p1 ≤ p2 by omega)
      have := dm r b
      obtain ⟨rank, h6, h7, h8⟩ := rank_of (n := n) (b := b) (p1 := p1) (k := r / b) hnt (by omega) ((lt_ceilDiv hb).mpr (by omega))
      exact ⟨rank, List.mem_range.mpr h6, (mem_heRank hb hlo h12 h2).mpr
        (Or.inr (Or.inl ⟨r, h3, h4, Or.inr ⟨by omega, h7, h8⟩, rfl⟩))⟩
  have hsym : ∀ r, p1 < r → r < p2 → ∃ rank, rank ∈ List.range nt ∧
      (⟨(r, p1), (p2, r), true⟩ : Sw) ∈ heRank n b lo nt p1 p2 rank := by
    intro r h3 h4
    have hle := Nat.div_le_div_right (c := b) (show p1 ≤ r by omega)
    by_cases h5 : r / b = p1 / b
    · exact ⟨2 % nt, List.mem_range.mpr (Nat.mod_lt _ hnt),
        (mem_heRank hb hlo h12 h2).mpr (Or.inr (Or.inr (Or.inl ⟨r, h3, h4, Or.inl ⟨h5, rfl⟩, rfl⟩)))⟩
    · have := dm r b
      obtain ⟨rank, h6, h7, h8⟩ := rank_of (n := n) (b := b) (p1 := p1) (k := r / b) hnt (by omega) ((lt_ceilDiv hb).mpr (by omega))
      exact ⟨rank, List.mem_range.mpr h6, (mem_heRank hb hlo h12 h2).mpr
        (Or.inr (Or.inr (Or.inl ⟨r, h3, h4, Or.inr ⟨h7, h8⟩, rfl⟩)))⟩
  have hdg : ∀ x : Sw, x = ⟨(p2, p1), (p2, p1), true⟩ ∨ x = ⟨(p1, p1), (p2, p2), false⟩ → ∃ rank, rank ∈ List.range nt ∧
      x ∈ heRank n b lo nt p1 p2 rank := fun x hx =>
    ⟨3 % nt, List.mem_range.mpr (Nat.mod_lt _ hnt), (mem_heRank hb hlo h12 h2).mpr (Or.inr (Or.inr (Or.inr ⟨rfl, hx⟩)))⟩
  have hrow : ∀ c, lo ≤ c → c < p1 → ∃ rank, rank ∈ List.range nt ∧
      (⟨(p1, c), (p2, c), false⟩ : Sw) ∈ heRank n b lo nt p1 p2 rank := fun c h3 h4 =>
    ⟨0, List.mem_range.mpr hnt, (mem_heRank hb hlo h12 h2).mpr (Or.inl ⟨rfl, c, h3, h4, rfl⟩)⟩
  unfold canon at hx
  split_ifs at hx <;> cases hx
  all_goals first
    | exact hdg _ (Or.inl rfl)
    | exact hdg _ (Or.inr rfl)
    | exact hrow _ (by omega) (by omega)
    | exact hcol _ (by omega) (by omega)
    | exact hsym _ (by omega) (by omega)

theorem hmv_le (hb : 0 < b) (k : Nat) : hmv n b k ≤ b := by
  unfold hmv
  split_ifs <;> first | omega | exact (Nat.mod_lt _ hb).le

theorem nodup_tiles (hb : 0 < b) (l : List Nat) (hl : l.Nodup) (w : Nat → Nat) (hw : ∀ k, w k ≤ b) (g : Nat → Sw)
    (hg : Function.Injective g) : (l.flatMap fun k => (List.range (w k)).map fun t => g (k * b + t)).Nodup := by
  rw [List.nodup_flatMap]
  constructor
  · intro k _
    refine (List.nodup_map_iff fun t t' e => ?_).mpr List.nodup_range
    have := hg e
    omega
  · refine hl.imp fun {k k'} hne => ?_
    intro x h1 h2
    simp only [List.mem_map, List.mem_range] at h1 h2
    obtain ⟨t, ht, rfl⟩ := h1
    obtain ⟨t', ht', e⟩ := h2
    have e' := hg e
    have a1 := hw k
    have a2 := hw k'
    apply hne
    rw [← div_of_tile (b := b) (t := k) (i := t) (by omega), ← e', div_of_tile (by omega)]

theorem heRank_nodup (hb : 0 < b) (hlo : p1 / b * b = lo) (h12 : p1 < p2) (h2 : p2 < n) :
    (heRank n b lo nt p1 p2 rank).Nodup := by
  have hs : p1 / b < kStart n b nt rank p1 := by unfold kStart; omega
  have hle' := Nat.div_le_div_right (c := b) (show p1 ≤ p2 by omega)
  unfold heRank
  rw [if_neg (by omega)]
  have n1 : (pRows b lo rank p1 p2).Nodup := by
    unfold pRows
    split_ifs
    · refine (List.nodup_map_iff fun t t' e => ?_).mpr List.nodup_range
      simp only [Sw.mk.injEq, Prod.mk.injEq] at e
      omega
    · exact List.nodup_nil
  have n2 : (pCol n b nt rank p1 p2).Nodup := by
    unfold pCol
    split_ifs
    · refine (List.nodup_map_iff fun t t' e => ?_).mpr List.nodup_range
      simp only [Sw.mk.injEq, Prod.mk.injEq] at e
      omega
    · exact List.nodup_nil
  have n3 : (pCols n b nt rank p1 p2).Nodup := by
    unfold pCols
    exact nodup_tiles hb _ List.nodup_range' (hmv n b) (hmv_le hb)
      (fun r => ⟨(r, p1 / b * b + p1 % b), (r, p2 / b * b + p2 % b), false⟩) (fun r r' e => by
        simp only [Sw.mk.injEq, Prod.mk.injEq] at e; omega)
  have n4 : (pSym n b lo nt rank p1 p2).Nodup := by
    unfold pSym
    split_ifs
    · refine (List.nodup_map_iff fun t t' e => ?_).mpr List.nodup_range
      simp only [Sw.mk.injEq, Prod.mk.injEq] at e
      omega
    · exact List.nodup_nil
  have n5 : (pSyms n b nt rank p1 p2).Nodup := by
    unfold pSyms
    exact nodup_tiles hb _ List.nodup_range' (fun k => min (hmv n b k) (p2 - k * b)) (fun k => by have := hmv_le (n := n) hb k; omega)
      (fun r => ⟨(r, p1 / b * b + p1 % b), (p2 / b * b + p2 % b, r), true⟩) (fun r r' e => by
        simp only [Sw.mk.injEq, Prod.mk.injEq] at e; omega)
  have n6 : (pDiag b nt rank p1 p2).Nodup := by
    unfold pDiag
    split_ifs
    · simp
    · exact List.nodup_nil
  have m1 := fun x => mem_pRows (b := b) (lo := lo) (rank := rank) (p1 := p1) (p2 := p2) (x := x) hlo
  have m2 := fun x => mem_pCol (n := n) (b := b) (nt := nt) (rank := rank) (p1 := p1) (p2 := p2) (x := x) hb h2
  have m3 := fun x => mem_pCols (n := n) (b := b) (nt := nt) (rank := rank) (p1 := p1) (p2 := p2) (x := x) hb
  have m4 := fun x => mem_pSym (n := n) (b := b) (lo := lo) (nt := nt) (rank := rank) (p1 := p1) (p2 := p2) (x := x) hb hlo h12 h2
  have m5 := fun x => mem_pSyms (n := n) (b := b) (nt := nt) (rank := rank) (p1 := p1) (p2 := p2) (x := x) hb h2
  have m6 := fun x => mem_pDiag (b := b) (nt := nt) (rank := rank) (p1 := p1) (p2 := p2) (x := x)
  have hq : ∀ r, p2 / b < r / b → p2 < r := fun r h => by
    by_contra hc
    have := Nat.div_le_div_right (c := b) (show r ≤ p2 by omega)
    omega
  refine List.Nodup.append (List.Nodup.append (List.Nodup.append (List.Nodup.append (List.Nodup.append n1 n2 ?_) n3 ?_) n4 ?_) n5 ?_) n6 ?_
  · intro x h h'
    rw [m1] at h; rw [m2] at h'
    obtain ⟨-, c, a1, a2, rfl⟩ := h
    obtain ⟨-, r, b1, b2, b3, e⟩ := h'
    simp only [Sw.mk.injEq, Prod.mk.injEq] at e; omega
  · intro x h h'
    rw [List.mem_append, m1, m2] at h; rw [m3] at h'
    obtain ⟨r, b1, b2, b3, b4, e⟩ := h'
    have := hq r b1
    rcases h with ⟨-, c, a1, a2, rfl⟩ | ⟨-, c, a1, a2, a3, rfl⟩
    · simp only [Sw.mk.injEq, Prod.mk.injEq] at e; omega
    · simp only [Sw.mk.injEq, Prod.mk.injEq] at e
      rw [e.1.1] at a3; omega
  · intro x h h'
    rw [List.mem_append, List.mem_append, m1, m2, m3] at h; rw [m4] at h'
    obtain ⟨-, r, b1, b2, b3, e⟩ := h'
    rcases h with (⟨-, c, a1, a2, rfl⟩ | ⟨-, c, a1, a2, a3, rfl⟩) | ⟨c, a1, a2, a3, a4, rfl⟩ <;>
      simp [Sw.mk.injEq, Prod.mk.injEq] at e
  · intro x h h'
    rw [List.mem_append, List.mem_append, List.mem_append, m1, m2, m3, m4] at h; rw [m5] at h'
    obtain ⟨r, b1, b2, b3, e⟩ := h'
    rcases h with ((⟨-, c, a1, a2, rfl⟩ | ⟨-, c, a1, a2, a3, rfl⟩) | ⟨c, a1, a2, a3, a4, rfl⟩) | ⟨-, c, a1, a2, a3, rfl⟩
    · simp [Sw.mk.injEq, Prod.mk.injEq] at e
    · simp [Sw.mk.injEq, Prod.mk.injEq] at e
    · simp [Sw.mk.injEq, Prod.mk.injEq] at e
    · simp only [Sw.mk.injEq, Prod.mk.injEq] at e
      rw [e.1.1] at a3; omega
  · intro x h h'
    rw [List.mem_append, List.mem_append, List.mem_append, List.mem_append, m1, m2, m3, m4, m5] at h; rw [m6] at h'
    obtain ⟨-, e⟩ := h'
    rcases h with (((⟨-, c, a1, a2, rfl⟩ | ⟨-, c, a1, a2, a3, rfl⟩) | ⟨c, a1, a2, a3, a4, rfl⟩) | ⟨-, c, a1, a2, a3, rfl⟩) |
      ⟨c, a1, a2, a3, rfl⟩ <;> simp only [Sw.mk.injEq, Prod.mk.injEq] at e
    · omega
    · omega
    · have := hq c a1; omega
    · omega
    · omega

theorem heAll_nodup (hb : 0 < b) (hlo : p1 / b * b = lo) (h12 : p1 < p2) (h2 : p2 < n) :
    (heAll n b lo nt p1 p2).Nodup := by
  unfold heAll
  rw [List.nodup_flatMap]
  refine ⟨fun r _ => heRank_nodup hb hlo h12 h2, List.nodup_range.imp fun {q q'} hne => ?_⟩
  intro x h h'
  apply hne
  rw [mem_heRank hb hlo h12 h2] at h h'
  have hs : ∀ rank, p1 / b < kStart n b nt rank p1 := fun rank => by unfold kStart; omega
  have hle' := Nat.div_le_div_right (c := b) (show p1 ≤ p2 by omega)
  rcases h with ⟨a1, c, a2, a3, rfl⟩ | ⟨r, a2, a3, a4, rfl⟩ | ⟨r, a2, a3, a4, rfl⟩ | ⟨a1, rfl | rfl⟩ <;>
    rcases h' with ⟨b1, c', b2, b3, e⟩ | ⟨r', b2, b3, b4, e⟩ | ⟨r', b2, b3, b4, e⟩ | ⟨b1, e | e⟩ <;>
    simp only [Sw.mk.injEq, Prod.mk.injEq] at e <;> try omega
  · obtain ⟨⟨rfl, -⟩, -⟩ := e
    rcases a4 with ⟨c1, c2⟩ | ⟨c1, c2, c3⟩ <;> rcases b4 with ⟨d1, d2⟩ | ⟨d1, d2, d3⟩ <;> try omega
    exact rank_uniq c2 c3 d2 d3
  · obtain ⟨⟨rfl, -⟩, -⟩ := e
    rcases a4 with ⟨c1, c2⟩ | ⟨c2, c3⟩ <;> rcases b4 with ⟨d1, d2⟩ | ⟨d2, d3⟩
    · omega
    · have := hs q; have := hs q'; omega
    · have := hs q; have := hs q'; omega
    · exact rank_uniq c2 c3 d2 d3

variable {α : Type v}

/-- Exchanges of different elements can be done in any order. -/
theorem runAll_canon [Star α] {cn : Nat × Nat → Option Sw} (L : List Sw) (hc : ∀ x ∈ L, cn x.p = some x ∧ cn x.q = some x)
    (hn : L.Nodup) (X : Nat → Nat → α) (r c : Nat) :
    (cn (r, c) = none → runAll L X r c = X r c) ∧
    (∀ y, cn (r, c) = some y → runAll L X r c = if y ∈ L then y.run X r c else X r c) := by
  induction L generalizing X with
  | nil => exact ⟨fun _ => rfl, fun y _ => rfl⟩
  | cons x L ih =>
    obtain ⟨hx, hn'⟩ := List.nodup_cons.mp hn
    obtain ⟨i1, i2⟩ := ih (fun z hz => hc z (List.mem_cons_of_mem _ hz)) hn' (x.run X)
    have hcx := hc x (List.mem_cons_self ..)
    have hout : ∀ a c', cn (a, c') ≠ some x → x.run X a c' = X a c' := by
      intro a c' h
      unfold Sw.run
      rw [if_neg (fun e => h (by rw [e]; exact hcx.1)), if_neg (fun e => h (by rw [e]; exact hcx.2))]
    show (_ → runAll L (x.run X) r c = _) ∧ ∀ y, _ → runAll L (x.run X) r c = _
    constructor
    · intro h
      rw [i1 h, hout r c (by rw [h]; simp)]
    · intro y hy
      rw [i2 y hy]
      by_cases e : y = x
      · subst e
        rw [if_neg hx, if_pos (List.mem_cons_self ..)]
      · have hne : cn (r, c) ≠ some x := by rw [hy]; simpa using e
        by_cases hm : y ∈ L
        · rw [if_pos hm, if_pos (List.mem_cons_of_mem _ hm)]
          have hcy := hc y (List.mem_cons_of_mem _ hm)
          have a1 := hout y.q.1 y.q.2 (by rw [hcy.2]; simpa using Ne.symm (Ne.symm e))
          have a2 := hout y.p.1 y.p.2 (by rw [hcy.1]; simpa using Ne.symm (Ne.symm e))
          have a3 := hout r c hne
          generalize x.run X = Y at a1 a2 a3
          unfold Sw.run
          rw [a1, a2, a3]
        · rw [if_neg hm, if_neg (fun h => (List.mem_cons.mp h).elim e hm), hout r c hne]

/-- The Hermitian matrix of which the lower triangle is stored. -/
def herm [Star α] (X : Nat → Nat → α) (r c : Nat) : α := if c ≤ r then X r c else star (X c r)

/-- One pivot: the Hermitian matrix from row `lo` on has rows and columns `p1`, `p2` interchanged, whatever the number of ranks
and the order in which they work. -/
theorem he_step [CommRing α] [StarRing α] (hb : 0 < b) (hnt : 0 < nt) (hlo : p1 / b * b = lo) (h12 : p1 ≤ p2) (h2 : p2 < n)
    {L : List Sw} (hL : L.Perm (heAll n b lo nt p1 p2)) (X : Nat → Nat → α) (r c : Nat) :
    runAll L X r c = if lo ≤ c ∧ c ≤ r ∧ r < n then herm X (Equiv.swap p1 p2 r) (Equiv.swap p1 p2 c) else X r c := by
  rcases Nat.lt_or_ge p1 p2 with h12 | hge
  swap
  · have e : p2 = p1 := by omega
    subst e
    have : heAll n b lo nt p2 p2 = [] := by unfold heAll heRank; simp
    rw [this] at hL
    rw [hL.eq_nil]
    show X r c = _
    split_ifs with h
    · simp [herm, h.2.1]
    · rfl
  have hl : lo ≤ p1 := by rw [← hlo]; exact Nat.div_mul_le_self _ _
  have hm : ∀ x ∈ L, canon n lo p1 p2 x.p = some x ∧ canon n lo p1 p2 x.q = some x := fun x hx =>
    mem_canon hb hlo h12 h2 (hL.mem_iff.mp hx)
  obtain ⟨k1, k2⟩ := runAll_canon L hm (hL.nodup_iff.mpr (heAll_nodup hb hlo h12 h2)) X r c
  have k2' : ∀ y, canon n lo p1 p2 (r, c) = some y → runAll L X r c = y.run X r c := fun y hy => by
    rw [k2 y hy, if_pos (hL.mem_iff.mpr (canon_mem hb hnt hlo h12 h2 hy))]
  have hsw : ∀ x, Equiv.swap p1 p2 x = if x = p1 then p2 else if x = p2 then p1 else x := fun x => Equiv.swap_apply_def ..
  by_cases hreg : lo ≤ c ∧ c ≤ r ∧ r < n
  · rw [if_pos hreg, hsw, hsw]
    unfold herm
    cases hcn : canon n lo p1 p2 (r, c) with
    | none =>
      rw [k1 hcn]
      unfold canon at hcn
      simp only at hcn
      split_ifs at hcn <;> (split_ifs <;> first | rfl | (exfalso; omega))
    | some y =>
      rw [k2' y hcn]
      unfold canon at hcn
      simp only at hcn
      split_ifs at hcn <;> cases hcn <;> unfold Sw.run cjv <;> simp only [Prod.mk.injEq]
      all_goals (split_ifs <;> first | rfl | (exfalso; omega) | (simp_all; done))
  · rw [if_neg hreg]
    apply k1
    unfold canon
    rw [if_pos hreg]

/-- An execution of `plasma_core_zheswp` by `nt` ranks for the pivots `lo .. lo+w-1` (counted from zero; `k1 = lo+1`,
`k2 = lo+w`, `incx = 1`), `p i = ipiv[i]-1`: all ranks work on one pivot, in any order, and meet at the barrier
(core_blas/core_zheswp.c:60-142).  An exchange of two elements is one action: no element is touched by two ranks
(`mem_canon`). -/
def HeExec [Star α] (n b lo nt : Nat) (p : Nat → Nat) : Nat → (Nat → Nat → α) → (Nat → Nat → α) → Prop
  | 0, X, X' => X' = X
  | w + 1, X, X' => ∃ Y L, HeExec n b lo nt p w X Y ∧ L.Perm (heAll n b lo nt (lo + w) (p (lo + w))) ∧ X' = runAll L Y

/-- The execution in which the ranks work one after the other. -/
def heswp [Star α] (n b lo nt : Nat) (p : Nat → Nat) : Nat → (Nat → Nat → α) → Nat → Nat → α
  | 0, X => X
  | w + 1, X => runAll (heAll n b lo nt (lo + w) (p (lo + w))) (heswp n b lo nt p w X)

theorem heswp_exec [Star α] {p : Nat → Nat} {w : Nat} {X : Nat → Nat → α} :
    HeExec n b lo nt p w X (heswp n b lo nt p w X) := by
  induction w with
  | zero => rfl
  | succ w ih => exact ⟨_, _, ih, List.Perm.refl _, rfl⟩

/-- `plasma_core_zheswp` applies the interchanges symmetrically. -/
theorem he_exec [CommRing α] [StarRing α] (hb : 0 < b) (hnt : 0 < nt) {q : Nat} (hq : lo = q * b) {p : Nat → Nat} {w : Nat}
    (hw : w ≤ b) (hp : ∀ i, lo ≤ i → i < lo + w → i ≤ p i ∧ p i < n) {X X' : Nat → Nat → α}
    (hX : HeExec n b lo nt p w X X') (r c : Nat) :
    X' r c = if lo ≤ c ∧ c ≤ r ∧ r < n then herm X (perm p lo w r) (perm p lo w c) else X r c := by
  induction w generalizing X' r c with
  | zero =>
    cases hX
    split_ifs with h
    · simp [herm, perm, h.2.1]
    · rfl
  | succ w ih =>
    obtain ⟨Y, L, hY, hL, rfl⟩ := hX
    have hp' : ∀ i, lo ≤ i → i < lo + w → i ≤ p i ∧ p i < n := fun i h1 h2 => hp i h1 (by omega)
    have hpw := hp (lo + w) (by omega) (by omega)
    have hd : (lo + w) / b * b = lo := by rw [hq, div_of_tile (by omega)]
    have ihY := fun r c => ih (by omega) hp' hY r c
    rw [he_step hb hnt hd hpw.1 hpw.2 hL]
    by_cases h : lo ≤ c ∧ c ≤ r ∧ r < n
    · rw [if_pos h, if_pos h]
      have hsw : ∀ x, lo ≤ x → x < n → lo ≤ Equiv.swap (lo + w) (p (lo + w)) x ∧ Equiv.swap (lo + w) (p (lo + w)) x < n := by
        intro x h1 h2
        rw [Equiv.swap_apply_def]
        split_ifs <;> omega
      have hr := hsw r (by omega) h.2.2
      have hc := hsw c h.1 (by omega)
      show herm Y _ _ = herm X (perm p lo w (Equiv.swap (lo + w) (p (lo + w)) r)) (perm p lo w (Equiv.swap (lo + w) (p (lo + w)) c))
      generalize Equiv.swap (lo + w) (p (lo + w)) r = x at *
      generalize Equiv.swap (lo + w) (p (lo + w)) c = y at *
      by_cases hxy : y ≤ x
      · have : herm Y x y = Y x y := by unfold herm; rw [if_pos hxy]
        rw [this, ihY, if_pos ⟨hc.1, hxy, hr.2⟩]
      · have : herm Y x y = star (Y y x) := by unfold herm; rw [if_neg hxy]
        rw [this, ihY, if_pos ⟨hr.1, by omega, hc.2⟩]
        have hne : perm p lo w y ≠ perm p lo w x := fun e => hxy (by rw [(perm p lo w).injective e])
        unfold herm
        split_ifs with h1 h2 h2
        · exact absurd (le_antisymm h2 h1) hne
        · rfl
        · exact star_star _
        · omega
    · rw [if_neg h, if_neg h, ihY, if_neg h]

end

end Verif.Heswp

/-
Band matrices: conversion between LAPACK band storage and the tiles of a band
descriptor (core_blas/core_zlacpy_band.c, compute/pzpb2desc.c, compute/pzdesc2pb.c).
-/
import Verif.DriverG

namespace Verif.Tile

open Verif.Layout

universe u v

/-- The loop `for (x = a; x < b; x++)` over `int`. -/
def ispan (a b : Int) : List Int := (List.range (b - a).toNat).map fun k : Nat => a + (k : Int)

theorem mem_ispan {a b x : Int} : x ∈ ispan a b ↔ a ≤ x ∧ x < b := by
  simp only [ispan, List.mem_map, List.mem_range]
  constructor
  · rintro ⟨k, hk, rfl⟩; omega
  · intro h; exact ⟨(x - a).toNat, by omega, by omega⟩

/-! ### The copy kernels -/

/-- `j_start` (core_blas/core_zlacpy_band.c:62-73, 173-184); `none` is `PlasmaGeneral`. -/
def bJs (v : Stor) (it jt nb kl : Int) : Int :=
  match v with
  | none => 0
  | some .upper => 0
  | some .lower => max 0 ((it - jt) * nb - kl)

/-- `j_end` (core_blas/core_zlacpy_band.c:62-73, 173-184). -/
def bJe (v : Stor) (it jt m n nb kl ku : Int) : Int :=
  match v with
  | none => if jt ≤ it then n else min n ((it - jt) * nb + m + ku + kl + 1)
  | some .upper => min n ((it - jt) * nb + m + ku + 1)
  | some .lower => n

/-- `i_start` (core_blas/core_zlacpy_band.c:82-97, 189-204). -/
def bIs (v : Stor) (it jt j nb kl ku : Int) : Int :=
  match v with
  | none => if jt ≤ it then 0 else max 0 ((jt - it) * nb + j - ku - kl)
  | some .upper => max 0 ((jt - it) * nb + j - ku)
  | some .lower => max 0 ((jt - it) * nb + j)

/-- `i_end` (core_blas/core_zlacpy_band.c:82-97, 189-204). -/
def bIe (v : Stor) (it jt j m nb kl : Int) : Int :=
  match v with
  | none => if jt ≥ it then m else min m ((jt - it) * nb + j + kl + nb + 1)
  | some .upper => min m ((jt - it) * nb + j + 1)
  | some .lower => min m ((jt - it) * nb + j + kl + 1)

/-- The assignments of `plasma_core_zlacpy_lapack2tile_band` in program order
(core_blas/core_zlacpy_band.c:75-111): `(i, j, true)` is `B[i + j*ldb] = A[i + j*lda]`,
`(i, j, false)` is `B[i + j*ldb] = 0.0`.  Indices are `int`s and may leave the tile. -/
def l2tSteps (v : Stor) (it jt m n nb kl ku : Int) : List (Int × Int × Bool) :=
  ((ispan 0 (bJs v it jt nb kl)).flatMap fun j => (ispan 0 m).map fun i => (i, j, false)) ++
  ((ispan (bJs v it jt nb kl) (bJe v it jt m n nb kl ku)).flatMap fun j =>
    (ispan 0 (bIs v it jt j nb kl ku)).map (fun i => (i, j, false)) ++
    ((ispan (bIs v it jt j nb kl ku) (bIe v it jt j m nb kl)).map (fun i => (i, j, true)) ++
    (ispan (bIe v it jt j m nb kl) m).map fun i => (i, j, false))) ++
  ((ispan (bJe v it jt m n nb kl ku) n).flatMap fun j => (ispan 0 m).map fun i => (i, j, false))

/-- The assignments `A[i + j*lda] = B[i + j*ldb]` of `plasma_core_zlacpy_tile2lapack_band`
(core_blas/core_zlacpy_band.c:186-208). -/
def t2lSteps (v : Stor) (it jt m n nb kl ku : Int) : List (Int × Int) :=
  (ispan (bJs v it jt nb kl) (bJe v it jt m n nb kl ku)).flatMap fun j =>
    (ispan (bIs v it jt j nb kl ku) (bIe v it jt j m nb kl)).map fun i => (i, j)

theorem mem_l2t_true {v : Stor} {it jt m n nb kl ku i j : Int} :
    (i, j, true) ∈ l2tSteps v it jt m n nb kl ku ↔
      (bJs v it jt nb kl ≤ j ∧ j < bJe v it jt m n nb kl ku) ∧
      (bIs v it jt j nb kl ku ≤ i ∧ i < bIe v it jt j m nb kl) := by
  simp only [l2tSteps, List.mem_append, List.mem_flatMap, List.mem_map, mem_ispan, Prod.mk.injEq]
  constructor
  · rintro ((⟨_, _, _, _, _, _, h⟩ | ⟨_, h, ⟨_, _, _, _, h'⟩ | ⟨_, h2, rfl, rfl, _⟩ | ⟨_, _, _, _, h'⟩⟩) | ⟨_, _, _, _, _, _, h⟩)
    · cases h
    · cases h'
    · exact ⟨h, h2⟩
    · cases h'
    · cases h
  · rintro ⟨h1, h2⟩
    exact Or.inl (Or.inr ⟨j, h1, Or.inr (Or.inl ⟨i, h2, rfl, rfl, trivial⟩)⟩)

theorem mem_l2t_false {v : Stor} {it jt m n nb kl ku i j : Int} :
    (i, j, false) ∈ l2tSteps v it jt m n nb kl ku ↔
      ((0 ≤ j ∧ j < bJs v it jt nb kl) ∧ 0 ≤ i ∧ i < m) ∨
      ((bJs v it jt nb kl ≤ j ∧ j < bJe v it jt m n nb kl ku) ∧
        ((0 ≤ i ∧ i < bIs v it jt j nb kl ku) ∨ (bIe v it jt j m nb kl ≤ i ∧ i < m))) ∨
      ((bJe v it jt m n nb kl ku ≤ j ∧ j < n) ∧ 0 ≤ i ∧ i < m) := by
  simp only [l2tSteps, List.mem_append, List.mem_flatMap, List.mem_map, mem_ispan, Prod.mk.injEq]
  constructor
  · rintro ((⟨_, h, _, h2, rfl, rfl, _⟩ | ⟨_, h, ⟨_, h2, rfl, rfl, _⟩ | ⟨_, _, _, _, h'⟩ | ⟨_, h2, rfl, rfl, _⟩⟩) |
      ⟨_, h, _, h2, rfl, rfl, _⟩)
    · exact Or.inl ⟨h, h2⟩
    · exact Or.inr (Or.inl ⟨h, Or.inl h2⟩)
    · cases h'
    · exact Or.inr (Or.inl ⟨h, Or.inr h2⟩)
    · exact Or.inr (Or.inr ⟨h, h2⟩)
  · rintro (⟨h1, h2⟩ | ⟨h1, h2 | h2⟩ | ⟨h1, h2⟩)
    · exact Or.inl (Or.inl ⟨j, h1, i, h2, rfl, rfl, trivial⟩)
    · exact Or.inl (Or.inr ⟨j, h1, Or.inl ⟨i, h2, rfl, rfl, trivial⟩⟩)
    · exact Or.inl (Or.inr ⟨j, h1, Or.inr (Or.inr ⟨i, h2, rfl, rfl, trivial⟩)⟩)
    · exact Or.inr ⟨j, h1, i, h2, rfl, rfl, trivial⟩

theorem mem_t2l {v : Stor} {it jt m n nb kl ku i j : Int} :
    (i, j) ∈ t2lSteps v it jt m n nb kl ku ↔ (i, j, true) ∈ l2tSteps v it jt m n nb kl ku := by
  rw [mem_l2t_true]
  simp only [t2lSteps, List.mem_flatMap, List.mem_map, mem_ispan, Prod.mk.injEq]
  constructor
  · rintro ⟨_, h, _, h2, rfl, rfl⟩; exact ⟨h, h2⟩
  · rintro ⟨h1, h2⟩; exact ⟨j, h1, i, h2, rfl, rfl⟩

section
variable {α : Type v}

/-- Running the assignments of `plasma_core_zlacpy_lapack2tile_band` on the elements
with natural indices. -/
def l2tRun [Zero α] (l : List (Int × Int × Bool)) (A B : Tl α) : Tl α :=
  l.foldl (fun B p i j => if (i : Int) = p.1 ∧ (j : Int) = p.2.1 then (if p.2.2 then A i j else 0) else B i j) B

/-- Running the assignments of `plasma_core_zlacpy_tile2lapack_band`. -/
def t2lRun (l : List (Int × Int)) (B A : Tl α) : Tl α :=
  l.foldl (fun A p i j => if (i : Int) = p.1 ∧ (j : Int) = p.2 then B i j else A i j) A

theorem l2tRun_out [Zero α] {l : List (Int × Int × Bool)} {A B : Tl α} {i j : Nat}
    (h : ∀ f, ((i : Int), (j : Int), f) ∉ l) : l2tRun l A B i j = B i j := by
  induction l generalizing B with
  | nil => rfl
  | cons p l ih =>
    have := ih (B := fun i j => if (i : Int) = p.1 ∧ (j : Int) = p.2.1 then (if p.2.2 then A i j else 0) else B i j)
      fun f hf => h f (List.mem_cons_of_mem _ hf)
    refine this.trans (if_neg ?_)
    rintro ⟨h1, h2⟩
    apply h p.2.2
    rw [h1, h2]
    exact List.mem_cons_self ..

theorem l2tRun_in [Zero α] {l : List (Int × Int × Bool)} {A B : Tl α} {i j : Nat} {f : Bool}
    (h : ((i : Int), (j : Int), f) ∈ l) (h' : ((i : Int), (j : Int), !f) ∉ l) :
    l2tRun l A B i j = if f then A i j else 0 := by
  induction l generalizing B with
  | nil => simp at h
  | cons p l ih =>
    by_cases hl : ((i : Int), (j : Int), f) ∈ l
    · exact ih hl fun e => h' (List.mem_cons_of_mem _ e)
    · have hp : p = ((i : Int), (j : Int), f) := by
        rcases List.mem_cons.mp h with e | e
        · exact e.symm
        · exact absurd e hl
      have := l2tRun_out (l := l) (A := A)
        (B := fun i j => if (i : Int) = p.1 ∧ (j : Int) = p.2.1 then (if p.2.2 then A i j else 0) else B i j)
        (i := i) (j := j) (by
          intro g hg
          by_cases hgf : g = f
          · exact hl (hgf ▸ hg)
          · have : g = !f := by cases g <;> cases f <;> simp_all
            exact h' (List.mem_cons_of_mem _ (this ▸ hg)))
      refine this.trans ?_
      rw [hp]; simp

theorem t2lRun_out {l : List (Int × Int)} {A B : Tl α} {i j : Nat}
    (h : ((i : Int), (j : Int)) ∉ l) : t2lRun l B A i j = A i j := by
  induction l generalizing A with
  | nil => rfl
  | cons p l ih =>
    refine (ih fun e => h (List.mem_cons_of_mem _ e)).trans (if_neg ?_)
    rintro ⟨h1, h2⟩
    apply h
    rw [h1, h2]
    exact List.mem_cons_self ..

theorem t2lRun_in {l : List (Int × Int)} {A B : Tl α} {i j : Nat}
    (h : ((i : Int), (j : Int)) ∈ l) : t2lRun l B A i j = B i j := by
  induction l generalizing A with
  | nil => simp at h
  | cons p l ih =>
    by_cases hl : ((i : Int), (j : Int)) ∈ l
    · exact ih hl
    · have hp : p = ((i : Int), (j : Int)) := by
        rcases List.mem_cons.mp h with e | e
        · exact e.symm
        · exact absurd e hl
      refine (t2lRun_out hl).trans ?_
      rw [hp]; simp

end

/-! ### Which elements are copied -/

/-- Elements copied by the kernels, in matrix indices: the band, and for
`PlasmaGeneral` the room for fill-in, every element of a diagonal tile and whole
tiles next to it. -/
def inB (v : Stor) (b kl ku it jt r c : Nat) : Prop :=
  match v with
  | none => (it < jt → c ≤ r + (ku + kl)) ∧ (jt < it → r ≤ c + kl + b)
  | some .upper => r ≤ c ∧ c ≤ r + ku
  | some .lower => c ≤ r ∧ r ≤ c + kl

/-- Tiles visited by the conversion loops. -/
def bTile (v : Stor) (b kl ku it jt : Nat) : Prop :=
  match v with
  | none => jt * b < it * b + b + (ku + kl) ∧ it * b < jt * b + b + kl
  | some .upper => it ≤ jt ∧ jt * b < it * b + b + ku
  | some .lower => jt ≤ it ∧ it * b < jt * b + b + kl

theorem tile_full {N b it jt : Nat} (h : jt < it) (hx : it * b < N) : tdim N b jt = b := by
  have : (jt + 1) * b ≤ it * b := Nat.mul_le_mul_right _ h
  have h2 : (jt + 1) * b = jt * b + b := by ring
  unfold tdim; omega

theorem l2t_in {v : Stor} {N b kl ku it jt : Nat} (hx : it * b < N) (hy : jt * b < N)
    (ht : bTile v b kl ku it jt) {i j : Nat} (hi : i < tdim N b it) (hj : j < tdim N b jt) :
    (((i : Int), (j : Int), true) ∈ l2tSteps v it jt (tdim N b it) (tdim N b jt) b kl ku ↔
      inB v b kl ku it jt (it * b + i) (jt * b + j)) ∧
    (((i : Int), (j : Int), false) ∈ l2tSteps v it jt (tdim N b it) (tdim N b jt) b kl ku ↔
      ¬ inB v b kl ku it jt (it * b + i) (jt * b + j)) := by
  rw [mem_l2t_true, mem_l2t_false]
  have e1 : ((jt : Int) - it) * b = jt * b - it * b := by ring
  have e2 : ((it : Int) - jt) * b = it * b - jt * b := by ring
  have f1 : jt < it → tdim N b jt = b := fun h => tile_full h hx
  have f2 : it < jt → tdim N b it = b := fun h => tile_full h hy
  have f3 : it = jt → it * b = jt * b := fun h => by rw [h]
  have f4 : it < jt → it * b + b ≤ jt * b := fun h => by
    have := Nat.mul_le_mul_right b (show it + 1 ≤ jt from h)
    rw [Nat.add_mul] at this; omega
  have f5 : jt < it → jt * b + b ≤ it * b := fun h => by
    have := Nat.mul_le_mul_right b (show jt + 1 ≤ it from h)
    rw [Nat.add_mul] at this; omega
  have g1 : ((it * b : Nat) : Int) = (it : Int) * b := by push_cast; ring
  have g2 : ((jt * b : Nat) : Int) = (jt : Int) * b := by push_cast; ring
  have h1 : tdim N b it ≤ b := tdim_le
  have h2 : tdim N b jt ≤ b := tdim_le
  generalize tdim N b it = p at *
  generalize tdim N b jt = q at *
  simp only [inB, bTile, bJs, bJe, bIs, bIe] at *
  generalize hX : (it : Int) * b = X at *
  generalize hY : (jt : Int) * b = Y at *
  generalize it * b = x at *
  generalize jt * b = y at *
  rcases v with _ | (_ | _) <;> simp only [e1, e2] at * <;> constructor
  · split_ifs <;> omega
  · split_ifs <;> omega
  · omega
  · omega
  · omega
  · omega

theorem l2t_bound {v : Stor} {N b kl ku it jt : Nat} (hx : it * b < N) (hy : jt * b < N)
    (ht : bTile v b kl ku it jt) {i j : Int} {f : Bool}
    (h : (i, j, f) ∈ l2tSteps v it jt (tdim N b it) (tdim N b jt) b kl ku) :
    (0 ≤ i ∧ i < tdim N b it) ∧ 0 ≤ j ∧ j < tdim N b jt := by
  have h' : (i, j, true) ∈ l2tSteps v it jt (tdim N b it) (tdim N b jt) b kl ku ∨
      (i, j, false) ∈ l2tSteps v it jt (tdim N b it) (tdim N b jt) b kl ku := by
    cases f
    · exact Or.inr h
    · exact Or.inl h
  clear h
  rw [mem_l2t_true, mem_l2t_false] at h'
  have e1 : ((jt : Int) - it) * b = jt * b - it * b := by ring
  have e2 : ((it : Int) - jt) * b = it * b - jt * b := by ring
  have f1 : jt < it → tdim N b jt = b := fun h => tile_full h hx
  have f2 : it < jt → tdim N b it = b := fun h => tile_full h hy
  have f3 : it = jt → it * b = jt * b := fun h => by rw [h]
  have f4 : it < jt → it * b + b ≤ jt * b := fun h => by
    have := Nat.mul_le_mul_right b (show it + 1 ≤ jt from h)
    rw [Nat.add_mul] at this; omega
  have f5 : jt < it → jt * b + b ≤ it * b := fun h => by
    have := Nat.mul_le_mul_right b (show jt + 1 ≤ it from h)
    rw [Nat.add_mul] at this; omega
  have g1 : ((it * b : Nat) : Int) = (it : Int) * b := by push_cast; ring
  have g2 : ((jt * b : Nat) : Int) = (jt : Int) * b := by push_cast; ring
  have h1 : tdim N b it ≤ b := tdim_le
  have h2 : tdim N b jt ≤ b := tdim_le
  have k1 : it = jt → tdim N b it = tdim N b jt := fun h => by rw [h]
  generalize tdim N b it = p at *
  generalize tdim N b jt = q at *
  simp only [bTile, bJs, bJe, bIs, bIe] at *
  generalize hX : (it : Int) * b = X at *
  generalize hY : (jt : Int) * b = Y at *
  generalize it * b = x at *
  generalize jt * b = y at *
  rcases v with _ | (_ | _) <;> simp only [e1, e2] at *
  · split_ifs at h' <;> omega
  · omega
  · omega

/-- Tiles outside the band: nothing is copied. -/
theorem t2l_extra {N b ku kl it jt : Nat} (hx : it * b < N) (hy : jt * b < N) (h1 : it ≤ jt)
    (h2 : it * b + b + ku ≤ jt * b) {i j : Int} :
    (i, j) ∉ t2lSteps (some .upper) it jt (tdim N b it) (tdim N b jt) b kl ku := by
  rw [mem_t2l, mem_l2t_true]
  have e1 : ((jt : Int) - it) * b = jt * b - it * b := by ring
  have e2 : ((it : Int) - jt) * b = it * b - jt * b := by ring
  have g1 : ((it * b : Nat) : Int) = (it : Int) * b := by push_cast; ring
  have g2 : ((jt * b : Nat) : Int) = (jt : Int) * b := by push_cast; ring
  have h3 : tdim N b it ≤ b := tdim_le
  generalize tdim N b it = p at *
  generalize tdim N b jt = q at *
  simp only [bJs, bJe, bIs, bIe, e1, e2]
  generalize hX : (it : Int) * b = X at *
  generalize hY : (jt : Int) * b = Y at *
  generalize it * b = x at *
  generalize jt * b = y at *
  omega

instance {v : Stor} {b kl ku it jt r c : Nat} : Decidable (inB v b kl ku it jt r c) := by
  unfold inB; split <;> infer_instance

instance {v : Stor} {b kl ku it jt : Nat} : Decidable (bTile v b kl ku it jt) := by
  unfold bTile; split <;> infer_instance

/-! ### The conversion loops -/

variable {M : Type u} {α : Type v}

/-- The square matrix made by `plasma_desc_general_band_create(.., uplo, b, b, lm, n, 0, 0,
n, n, kl, ku, ..)` (control/descriptor.c:50-82, 178-213). -/
def bandT (id : M) (v : Stor) (b lm n kl ku : Nat) : TMat M where
  id := id
  d := { general b b lm n 0 0 n n with
    type := .band
    kl := kl
    ku := ku
    klt := match v with
      | none => 1 + (0 + kl + b - 1) / b - 0 / b
      | some .upper => 1
      | some .lower => 1 + (0 + kl + b - 1) / b - 0 / b
    kut := match v with
      | none => 1 + (0 + ku + kl + b - 1) / b - 0 / b
      | some .upper => 1 + (0 + ku + b - 1) / b - 0 / b
      | some .lower => 1 }

theorem bandT_al (id : M) (v : Stor) {b : Nat} (hb : 0 < b) (lm n kl ku : Nat) :
    (bandT id v b lm n kl ku).Al b :=
  ⟨hb, rfl, rfl, by simp [bandT, general], by simp [bandT, general], rfl, rfl⟩

/-- `plasma_core_omp_zlacpy_lapack2tile_band` (core_blas/core_zlacpy_band.c:115-127):
reads the copied elements of the user's band, writes the tile. -/
def coreL2t [Zero α] (v : Stor) (it jt m n nb kl ku : Nat) (a c : M) : TTask M α :=
  op1 a (fun i j => ((i : Int), (j : Int), true) ∈ l2tSteps v it jt m n nb kl ku)
    c (fun i j => ∃ f, ((i : Int), (j : Int), f) ∈ l2tSteps v it jt m n nb kl ku)
    (l2tRun (l2tSteps v it jt m n nb kl ku))

/-- `plasma_core_omp_zlacpy_tile2lapack_band` (core_blas/core_zlacpy_band.c:212-224):
reads and writes the copied elements only. -/
def coreT2l (v : Stor) (it jt m n nb kl ku : Nat) (c a : M) : TTask M α :=
  op1 c (fun i j => ((i : Int), (j : Int)) ∈ t2lSteps v it jt m n nb kl ku)
    a (fun i j => ((i : Int), (j : Int)) ∈ t2lSteps v it jt m n nb kl ku)
    (t2lRun (t2lSteps v it jt m n nb kl ku))

/-- `m_start` of compute/pzpb2desc.c:37-48. -/
def msIn (v : Stor) (A : Desc) (n : Nat) : Nat :=
  match v with
  | none => (n * A.nb - A.ku - A.kl) / A.nb
  | some .upper => (n * A.nb - A.ku) / A.nb
  | some .lower => (n * A.nb) / A.nb

/-- `m_start` of compute/pzdesc2pb.c:37-48; the upper case subtracts `kl` too. -/
def msOut (v : Stor) (A : Desc) (n : Nat) : Nat :=
  match v with
  | none => (n * A.nb - A.ku - A.kl) / A.nb
  | some .upper => (n * A.nb - A.ku - A.kl) / A.nb
  | some .lower => (n * A.nb) / A.nb

/-- `m_end` of compute/pzpb2desc.c:37-48 and compute/pzdesc2pb.c:37-48. -/
def mEnd (v : Stor) (A : Desc) (n : Nat) : Nat :=
  match v with
  | none => (min (A.m - 1) ((n + 1) * A.nb + A.kl - 1)) / A.nb
  | some .upper => (min (A.m - 1) ((n + 1) * A.nb - 1)) / A.nb
  | some .lower => (min (A.m - 1) ((n + 1) * A.nb + A.kl - 1)) / A.nb

/-- `plasma_pzpb2desc` (compute/pzpb2desc.c:27-63).  `U` is the user's array seen as a
matrix cut into the tiles of `A` (`bandA(m, n)` with leading dimension `lda-1`). -/
def pzpb2desc [Zero α] (v : Stor) (U A : TMat M) : List (TTask (M × Nat × Nat) α) :=
  (List.range A.d.nt).flatMap fun n =>
    (span (msIn v A.d n) (mEnd v A.d n + 1)).map fun m =>
      coreL2t v m n (min A.d.mb (A.d.m - m * A.d.mb)) (min A.d.nb (A.d.n - n * A.d.nb)) A.d.mb A.d.kl A.d.ku
        (U.at' m n) (A.at' m n)

/-- `plasma_pzdesc2pb` (compute/pzdesc2pb.c:27-63).  The tasks with `m` above the band in
the upper case copy nothing (`t2l_extra`); the model names their operands by tile index
although the C code forms addresses outside of the arrays for them. -/
def pzdesc2pb (v : Stor) (A U : TMat M) : List (TTask (M × Nat × Nat) α) :=
  (List.range A.d.nt).flatMap fun n =>
    (span (msOut v A.d n) (mEnd v A.d n + 1)).map fun m =>
      coreT2l v m n (min A.d.mb (A.d.m - m * A.d.mb)) (min A.d.nb (A.d.n - n * A.d.nb)) A.d.mb A.d.kl A.d.ku
        (A.at' m n) (U.at' m n)

theorem mem_bspan {b N x y it : Nat} (hb : 0 < b) :
    it ∈ span (x / b) (min (N - 1) y / b + 1) ↔ x < it * b + b ∧ it * b ≤ N - 1 ∧ it * b ≤ y := by
  rw [mem_span, ← Nat.lt_succ_iff, Nat.div_lt_iff_lt_mul hb, Nat.lt_succ_iff, Nat.le_div_iff_mul_le hb,
    Nat.succ_mul]
  omega

/-- Tiles visited by `pzpb2desc`. -/
theorem mem_bandIn {v : Stor} {A : TMat M} {b N it jt : Nat} (hA : A.Al b) (hm : A.d.m = N) (hn : A.d.n = N) :
    (jt < A.d.nt ∧ it ∈ span (msIn v A.d jt) (mEnd v A.d jt + 1)) ↔
      it * b < N ∧ jt * b < N ∧ bTile v b A.d.kl A.d.ku it jt := by
  have hb := hA.pos
  rw [hA.lt_nt, hn]
  have e : (jt + 1) * b = jt * b + b := by ring
  have f4 : it < jt → it * b + b ≤ jt * b := fun h => by
    have := Nat.mul_le_mul_right b (show it + 1 ≤ jt from h)
    rw [Nat.add_mul] at this; omega
  have f5 : jt < it → jt * b + b ≤ it * b := fun h => by
    have := Nat.mul_le_mul_right b (show jt + 1 ≤ it from h)
    rw [Nat.add_mul] at this; omega
  have f3 : it = jt → it * b = jt * b := fun h => by rw [h]
  rcases v with _ | (_ | _) <;> simp only [msIn, mEnd, bTile, hA.nb, hm] <;> rw [mem_bspan hb, e] <;>
    generalize it * b = x at * <;> generalize jt * b = y at * <;> omega

/-- Tiles visited by `pzdesc2pb`: those of `pzpb2desc`, and in the upper case tiles
above the band. -/
theorem mem_bandOut {v : Stor} {A : TMat M} {b N it jt : Nat} (hA : A.Al b) (hm : A.d.m = N) (hn : A.d.n = N)
    (h : jt < A.d.nt ∧ it ∈ span (msOut v A.d jt) (mEnd v A.d jt + 1)) :
    it * b < N ∧ jt * b < N ∧ (bTile v b A.d.kl A.d.ku it jt ∨
      v = some .upper ∧ it ≤ jt ∧ it * b + b + A.d.ku ≤ jt * b) := by
  have hb := hA.pos
  rw [hA.lt_nt, hn] at h
  have e : (jt + 1) * b = jt * b + b := by ring
  have f4 : it < jt → it * b + b ≤ jt * b := fun h => by
    have := Nat.mul_le_mul_right b (show it + 1 ≤ jt from h)
    rw [Nat.add_mul] at this; omega
  have f5 : jt < it → jt * b + b ≤ it * b := fun h => by
    have := Nat.mul_le_mul_right b (show jt + 1 ≤ it from h)
    rw [Nat.add_mul] at this; omega
  have f3 : it = jt → it * b = jt * b := fun h => by rw [h]
  rcases v with _ | (_ | _) <;> simp only [msOut, mEnd, bTile, hA.nb, hm] at h ⊢ <;>
    rw [mem_bspan hb, e] at h <;> generalize it * b = x at * <;> generalize jt * b = y at * <;>
    simp <;> omega

theorem mem_bandOut' {v : Stor} {A : TMat M} {b N it jt : Nat} (hA : A.Al b) (hm : A.d.m = N) (hn : A.d.n = N)
    (h1 : it * b < N) (h2 : jt * b < N) (h3 : bTile v b A.d.kl A.d.ku it jt) :
    jt < A.d.nt ∧ it ∈ span (msOut v A.d jt) (mEnd v A.d jt + 1) := by
  have hb := hA.pos
  rw [hA.lt_nt, hn]
  have e : (jt + 1) * b = jt * b + b := by ring
  have f4 : it < jt → it * b + b ≤ jt * b := fun h => by
    have := Nat.mul_le_mul_right b (show it + 1 ≤ jt from h)
    rw [Nat.add_mul] at this; omega
  have f5 : jt < it → jt * b + b ≤ it * b := fun h => by
    have := Nat.mul_le_mul_right b (show jt + 1 ≤ it from h)
    rw [Nat.add_mul] at this; omega
  have f3 : it = jt → it * b = jt * b := fun h => by rw [h]
  rcases v with _ | (_ | _) <;> simp only [msOut, mEnd, bTile, hA.nb, hm] at h3 ⊢ <;>
    rw [mem_bspan hb, e] <;> generalize it * b = x at * <;> generalize jt * b = y at * <;> omega

/-- Index pairs of a column-by-column loop. -/
def colPairs (n : Nat) (S : Nat → List Nat) : List (Nat × Nat) :=
  (List.range n).flatMap fun j => (S j).map fun i => (i, j)

theorem mem_colPairs {n : Nat} {S : Nat → List Nat} {p : Nat × Nat} :
    p ∈ colPairs n S ↔ p.2 < n ∧ p.1 ∈ S p.2 := by
  obtain ⟨a, c⟩ := p
  simp only [colPairs, List.mem_flatMap, List.mem_range, List.mem_map, Prod.mk.injEq]
  constructor
  · rintro ⟨j, hj, i, hi, rfl, rfl⟩; exact ⟨hj, hi⟩
  · rintro ⟨h1, h2⟩; exact ⟨c, h1, a, h2, rfl, rfl⟩

theorem nodup_colPairs {n : Nat} {S : Nat → List Nat} (hS : ∀ j, (S j).Nodup) : (colPairs n S).Nodup := by
  unfold colPairs
  rw [List.nodup_flatMap]
  refine ⟨fun j _ => (hS j).map fun a b h => (Prod.mk.inj h).1, ?_⟩
  refine List.Pairwise.imp ?_ (List.nodup_range (n := n))
  intro a b hab x hx hy
  simp only [List.mem_map] at hx hy
  obtain ⟨_, _, rfl⟩ := hx
  obtain ⟨_, _, e⟩ := hy
  exact hab (Prod.mk.inj e).2.symm

theorem flatMap_colPairs {n : Nat} {S : Nat → List Nat} (f : Nat → Nat → TTask M α) :
    ((List.range n).flatMap fun j => (S j).map fun i => f i j) =
      (colPairs n S).flatMap fun p => [f p.1 p.2] := by
  unfold colPairs
  rw [List.flatMap_assoc]
  congr 1; funext j
  rw [List.flatMap_map, List.map_eq_flatMap]

theorem coreL2t_local [Zero α] {v : Stor} {N b kl ku it jt : Nat} (hx : it * b < N) (hy : jt * b < N)
    (ht : bTile v b kl ku it jt) {a c : M} :
    (coreL2t (α := α) v it jt (tdim N b it) (tdim N b jt) b kl ku a c).Local := by
  refine op1_local ?_
  rintro A A' C C' hA hC i j ⟨f, hf⟩
  have hbd := l2t_bound hx hy ht hf
  have h2 := l2t_in hx hy ht (i := i) (j := j) (by omega) (by omega)
  by_cases h : inB v b kl ku it jt (it * b + i) (jt * b + j)
  · rw [l2tRun_in (h2.1.mpr h) (fun e => h2.2.mp e h), l2tRun_in (h2.1.mpr h) (fun e => h2.2.mp e h)]
    simpa using hA i j (h2.1.mpr h)
  · rw [l2tRun_in (h2.2.mpr h) (fun e => h (h2.1.mp e)), l2tRun_in (h2.2.mpr h) (fun e => h (h2.1.mp e))]
    rfl

theorem coreT2l_local {v : Stor} {it jt m n b kl ku : Nat} {a c : M} :
    (coreT2l (α := α) v it jt m n b kl ku c a).Local := by
  refine op1_local ?_
  intro A A' C C' hA hC i j h
  rw [t2lRun_in h, t2lRun_in h]
  exact hA i j h

/-- Effect of one task of `pzpb2desc`. -/
theorem coreL2t_run [Zero α] {v : Stor} {N b kl ku it jt : Nat} (hx : it * b < N) (hy : jt * b < N)
    (ht : bTile v b kl ku it jt) {a c : M} (s : Store M α) {i j : Nat} (hi : i < tdim N b it)
    (hj : j < tdim N b jt) :
    (coreL2t v it jt (tdim N b it) (tdim N b jt) b kl ku a c).run s c i j =
      if inB v b kl ku it jt (it * b + i) (jt * b + j) then s a i j else 0 := by
  have h2 := l2t_in hx hy ht (i := i) (j := j) hi hj
  unfold coreL2t
  rw [op1_self]
  by_cases h : inB v b kl ku it jt (it * b + i) (jt * b + j)
  · rw [paste_in ⟨true, h2.1.mpr h⟩, l2tRun_in (h2.1.mpr h) (fun e => h2.2.mp e h), if_pos h]; rfl
  · rw [paste_in ⟨false, h2.2.mpr h⟩, l2tRun_in (h2.2.mpr h) (fun e => h (h2.1.mp e)), if_neg h]; rfl

/-- Effect of one task of `pzdesc2pb`. -/
theorem coreT2l_run {v : Stor} {N b kl ku it jt : Nat} (hx : it * b < N) (hy : jt * b < N)
    (ht : bTile v b kl ku it jt) {a c : M} (s : Store M α) {i j : Nat} (hi : i < tdim N b it)
    (hj : j < tdim N b jt) :
    (coreT2l v it jt (tdim N b it) (tdim N b jt) b kl ku c a).run s a i j =
      if inB v b kl ku it jt (it * b + i) (jt * b + j) then s c i j else s a i j := by
  have h2 := (l2t_in hx hy ht (i := i) (j := j) hi hj).1
  rw [← mem_t2l] at h2
  unfold coreT2l
  rw [op1_self]
  by_cases h : inB v b kl ku it jt (it * b + i) (jt * b + j)
  · rw [paste_in (h2.mpr h), t2lRun_in (h2.mpr h), if_pos h]
  · rw [paste_out (fun e => h (h2.mp e)), if_neg h]

/-- Converting to tiles: the band is copied, the rest of every visited tile is zero. -/
theorem pzpb2desc_el [Zero α] {v : Stor} {U A : TMat M} {b N : Nat} (hA : A.Al b) (hU : U.Al b)
    (hm : A.d.m = N) (hn : A.d.n = N) (hid : U.id ≠ A.id) (s : Store (M × Nat × Nat) α) {r c : Nat}
    (hr : r < N) (hc : c < N) (ht : bTile v b A.d.kl A.d.ku (r / b) (c / b)) :
    A.el (texec (pzpb2desc v U A) s) r c =
      if inB v b A.d.kl A.d.ku (r / b) (c / b) r c then U.el s r c else 0 := by
  have hb := hA.pos
  have dr := divmod r b
  have dc := divmod c b
  have hx : r / b * b < N := by omega
  have hy : c / b * b < N := by omega
  have hin := (mem_bandIn (v := v) hA hm hn).mpr ⟨hx, hy, ht⟩
  unfold pzpb2desc
  rw [flatMap_colPairs (fun m n => coreL2t v m n (min A.d.mb (A.d.m - m * A.d.mb))
    (min A.d.nb (A.d.n - n * A.d.nb)) A.d.mb A.d.kl A.d.ku (U.at' m n) (A.at' m n))]
  simp only [hA.mb, hA.nb, hm, hn]
  simp only [← show ∀ k, tdim N b k = min b (N - k * b) from fun _ => rfl]
  unfold TMat.el
  rw [hA.mb, hA.nb, hU.mb, hU.nb]
  have hpm : (r / b, c / b) ∈ colPairs A.d.nt fun n => span (msIn v A.d n) (mEnd v A.d n + 1) :=
    mem_colPairs.mpr hin
  rw [show A.at' (r / b) (c / b) = (fun p : Nat × Nat => A.at' p.1 p.2) (r / b, c / b) from rfl,
    par (o := fun p : Nat × Nat => A.at' p.1 p.2) (nodup_colPairs fun _ => nodup_span) ?_ ?_ ?_ s hpm]
  · rw [texec_cons, texec_nil, coreL2t_run hx hy ht s (mod_lt_tdim hb hr) (mod_lt_tdim hb hc), dr, dc]
  · intro p _ q _ h
    exact Prod.ext (TMat.at'_inj.mp h).1 (TMat.at'_inj.mp h).2
  · intro p hp
    obtain ⟨h1, h2, h3⟩ := (mem_bandIn (v := v) hA hm hn).mp (mem_colPairs.mp hp)
    refine Within.op1 (coreL2t_local h1 h2 h3) (Or.inl fun q _ => TMat.at'_ne hid) (Or.inr rfl)
  · intro p hp
    exact writes_op1 rfl

/-- Converting back: exactly the copied elements change. -/
theorem pzdesc2pb_el {v : Stor} {U A : TMat M} {b N : Nat} (hA : A.Al b) (hU : U.Al b)
    (hm : A.d.m = N) (hn : A.d.n = N) (hid : U.id ≠ A.id) (s : Store (M × Nat × Nat) α) {r c : Nat}
    (hr : r < N) (hc : c < N) (ht : bTile v b A.d.kl A.d.ku (r / b) (c / b)) :
    U.el (texec (pzdesc2pb v A U) s) r c =
      if inB v b A.d.kl A.d.ku (r / b) (c / b) r c then A.el s r c else U.el s r c := by
  have hb := hA.pos
  have dr := divmod r b
  have dc := divmod c b
  have hx : r / b * b < N := by omega
  have hy : c / b * b < N := by omega
  have hin := mem_bandOut' (v := v) hA hm hn hx hy ht
  unfold pzdesc2pb
  rw [flatMap_colPairs (fun m n => coreT2l v m n (min A.d.mb (A.d.m - m * A.d.mb))
    (min A.d.nb (A.d.n - n * A.d.nb)) A.d.mb A.d.kl A.d.ku (A.at' m n) (U.at' m n))]
  simp only [hA.mb, hA.nb, hm, hn]
  simp only [← show ∀ k, tdim N b k = min b (N - k * b) from fun _ => rfl]
  unfold TMat.el
  rw [hA.mb, hA.nb, hU.mb, hU.nb]
  have hpm : (r / b, c / b) ∈ colPairs A.d.nt fun n => span (msOut v A.d n) (mEnd v A.d n + 1) :=
    mem_colPairs.mpr hin
  rw [show U.at' (r / b) (c / b) = (fun p : Nat × Nat => U.at' p.1 p.2) (r / b, c / b) from rfl,
    par (o := fun p : Nat × Nat => U.at' p.1 p.2) (nodup_colPairs fun _ => nodup_span) ?_ ?_ ?_ s hpm]
  · rw [texec_cons, texec_nil, coreT2l_run hx hy ht s (mod_lt_tdim hb hr) (mod_lt_tdim hb hc), dr, dc]
  · intro p _ q _ h
    exact Prod.ext (TMat.at'_inj.mp h).1 (TMat.at'_inj.mp h).2
  · intro p hp
    refine Within.op1 coreT2l_local (Or.inl fun q _ => TMat.at'_ne (Ne.symm hid)) (Or.inr rfl)
  · intro p hp
    exact writes_op1 rfl

/-- Elements written by `pzpb2desc`. -/
theorem pzpb2desc_wr [Zero α] {v : Stor} {U A : TMat M} {b N : Nat} (hA : A.Al b)
    (hm : A.d.m = N) (hn : A.d.n = N) :
    WritesE (fun t i j => ∃ m n, t = A.at' m n ∧ m * b < N ∧ n * b < N ∧ bTile v b A.d.kl A.d.ku m n ∧
      i < tdim N b m ∧ j < tdim N b n) (pzpb2desc (α := α) v U A) := by
  refine WritesE.flatMap fun n hn' => WritesE.map fun m hm' => ?_
  obtain ⟨h1, h2, h3⟩ := (mem_bandIn (v := v) hA hm hn).mp ⟨List.mem_range.mp hn', hm'⟩
  refine WritesE.single ?_
  rintro x i j ⟨rfl, f, hf⟩
  rw [hA.mb, hA.nb, hm, hn] at hf
  have := l2t_bound h1 h2 h3 hf
  exact ⟨m, n, rfl, h1, h2, h3, by omega, by omega⟩

/-- Elements written by `pzdesc2pb`. -/
theorem pzdesc2pb_wr {v : Stor} {U A : TMat M} {b N : Nat} (hA : A.Al b)
    (hm : A.d.m = N) (hn : A.d.n = N) :
    WritesE (fun t i j => ∃ m n, t = U.at' m n ∧ m * b < N ∧ n * b < N ∧ bTile v b A.d.kl A.d.ku m n ∧
      i < tdim N b m ∧ j < tdim N b n ∧ inB v b A.d.kl A.d.ku m n (m * b + i) (n * b + j))
      (pzdesc2pb (α := α) v A U) := by
  refine WritesE.flatMap fun n hn' => WritesE.map fun m hm' => ?_
  obtain ⟨h1, h2, h3⟩ := mem_bandOut (v := v) hA hm hn ⟨List.mem_range.mp hn', hm'⟩
  refine WritesE.single ?_
  rintro x i j ⟨rfl, hf⟩
  rw [hA.mb, hA.nb, hm, hn] at hf
  rcases h3 with h3 | ⟨rfl, h4, h5⟩
  · have hf' := mem_t2l.mp hf
    have := l2t_bound h1 h2 h3 hf'
    exact ⟨m, n, rfl, h1, h2, h3, by omega, by omega, (l2t_in h1 h2 h3 (by omega) (by omega)).1.mp hf'⟩
  · exact absurd hf (t2l_extra h1 h2 h4 h5)

theorem pzpb2desc_good [Zero α] {env : M → MatEnv} {v : Stor} {U A : TMat M} {b N : Nat} (hA : A.Al b)
    (hm : A.d.m = N) (hn : A.d.n = N)
    (vA : ∀ m n i j, bTile v b A.d.kl A.d.ku m n → i < tdim N b m → j < tdim N b n →
      evalid env (A.at' m n) i j)
    (vU : ∀ m n i j, bTile v b A.d.kl A.d.ku m n → i < tdim N b m → j < tdim N b n →
      inB v b A.d.kl A.d.ku m n (m * b + i) (n * b + j) → evalid env (U.at' m n) i j) :
    Good (evalid env) (pzpb2desc (α := α) v U A) := by
  refine Good.flatMap fun n hn' => Good.map fun m hm' => ?_
  obtain ⟨h1, h2, h3⟩ := (mem_bandIn (v := v) hA hm hn).mp ⟨List.mem_range.mp hn', hm'⟩
  rw [hA.mb, hA.nb, hm, hn]
  refine Good.single (coreL2t_local h1 h2 h3) op1_declared (op1_inside ?_ ?_)
  · intro i j hf
    have := l2t_bound h1 h2 h3 hf
    exact vU m n i j h3 (by omega) (by omega) ((l2t_in h1 h2 h3 (by omega) (by omega)).1.mp hf)
  · rintro i j ⟨f, hf⟩
    have := l2t_bound h1 h2 h3 hf
    exact vA m n i j h3 (by omega) (by omega)

theorem pzdesc2pb_good {env : M → MatEnv} {v : Stor} {U A : TMat M} {b N : Nat} (hA : A.Al b)
    (hm : A.d.m = N) (hn : A.d.n = N)
    (vA : ∀ m n i j, bTile v b A.d.kl A.d.ku m n → i < tdim N b m → j < tdim N b n →
      evalid env (A.at' m n) i j)
    (vU : ∀ m n i j, bTile v b A.d.kl A.d.ku m n → i < tdim N b m → j < tdim N b n →
      inB v b A.d.kl A.d.ku m n (m * b + i) (n * b + j) → evalid env (U.at' m n) i j) :
    Good (evalid env) (pzdesc2pb (α := α) v A U) := by
  refine Good.flatMap fun n hn' => Good.map fun m hm' => ?_
  obtain ⟨h1, h2, h3⟩ := mem_bandOut (v := v) hA hm hn ⟨List.mem_range.mp hn', hm'⟩
  rw [hA.mb, hA.nb, hm, hn]
  refine Good.single coreT2l_local op1_declared (op1_inside ?_ ?_)
  · intro i j hf
    rcases h3 with h3 | ⟨rfl, h4, h5⟩
    · have hf' := mem_t2l.mp hf
      have := l2t_bound h1 h2 h3 hf'
      exact vA m n i j h3 (by omega) (by omega)
    · exact absurd hf (t2l_extra h1 h2 h4 h5)
  · intro i j hf
    rcases h3 with h3 | ⟨rfl, h4, h5⟩
    · have hf' := mem_t2l.mp hf
      have := l2t_bound h1 h2 h3 hf'
      exact vU m n i j h3 (by omega) (by omega) ((l2t_in h1 h2 h3 (by omega) (by omega)).1.mp hf')
    · exact absurd hf (t2l_extra h1 h2 h4 h5)

end Verif.Tile

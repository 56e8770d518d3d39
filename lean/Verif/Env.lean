/-
Memory environments: the user's LAPACK-layout arrays and the tile matrices
allocated by a driver, as disjoint buffers.
-/
import Verif.Mat

namespace Verif.Tile

open Verif.Layout

universe u v

/-- How a matrix is stored: in the tile layout of a general descriptor covering the
whole allocation; column-major with a leading dimension; in the tile layout of a
triangular descriptor; in the tile layout of a band descriptor with `kut` tile
diagonals up to the main one and `lmt` tile rows; in LAPACK band storage with leading
dimension `ld`, `kl` sub- and `ku` superdiagonals, the main diagonal in row `off`. -/
inductive Kind
  | tile
  | lapack (ld : Nat)
  | tri (u : Uplo)
  | band (kut lmt : Nat)
  | lband (ld kl ku off : Nat)
  deriving DecidableEq, Repr

/-- A matrix in memory, cut into tiles of size `mb × nb`. -/
structure MatEnv where
  kind : Kind
  mb : Nat
  nb : Nat
  gm : Nat
  gn : Nat

namespace MatEnv

/-- Element offset of element `(i, j)` of tile `(m, n)`.  Tile layouts: `Desc.off`
(include/plasma_descriptor.h:93-206); the band descriptor addresses tile
`(kut-1+m-n, n)` of a general layout (lines 154-157).  LAPACK layout:
`pA[(size_t)A.nb*lda*n + (size_t)A.mb*m]` plus `i + j*lda` (compute/pzge2desc.c:46-52).
LAPACK band layout: row `off + r - c`, column `c`; the row number may be negative, the address
is not (as `c ≤ c * ld`). -/
def off (e : MatEnv) (m n i j : Nat) : Nat :=
  match e.kind with
  | .tile => (general e.mb e.nb e.gm e.gn 0 0 e.gm e.gn).off m n i j
  | .lapack ld => (e.nb * ld * n + e.mb * m) + (i + j * ld)
  | .tri u => (triangular (u = .upper) e.mb e.gm 0 0 e.gm e.gn).off m n i j
  | .band kut lmt => (general e.mb e.nb (lmt * e.mb) e.gn 0 0 (lmt * e.mb) e.gn).off ((kut - 1) + m - n) n i j
  | .lband ld _ _ off => off + (m * e.mb + i) + (n * e.nb + j) * ld - (n * e.nb + j)

/-- Which elements of which tiles are stored. -/
def stored (e : MatEnv) (m n i j : Nat) : Prop :=
  match e.kind with
  | .tile => True
  | .lapack _ => True
  | .tri u => inTri u m n
  | .band kut lmt => n ≤ (kut - 1) + m ∧ (kut - 1) + m - n < lmt
  | .lband _ kl ku _ => n * e.nb + j ≤ ku + (m * e.mb + i) ∧ m * e.mb + i ≤ kl + (n * e.nb + j)

/-- Positive tile sizes; leading dimensions large enough; triangular layouts square. -/
structure WF (e : MatEnv) : Prop where
  mb : 0 < e.mb
  nb : 0 < e.nb
  ld : ∀ l, e.kind = .lapack l → e.gm ≤ l
  sq : ∀ u, e.kind = .tri u → e.mb = e.nb ∧ e.gm = e.gn
  bd : ∀ l kl ku off, e.kind = .lband l kl ku off → kl + ku + 1 ≤ l ∧ off ≤ ku

/-- Number of elements of the allocation (tile layouts: the `malloc` of
control/descriptor.c:39-41,74-76,108-113; user array: `lda*(n-1)+m`, the LAPACK
convention). -/
def size (e : MatEnv) : Nat :=
  match e.kind with
  | .tile => e.gm * e.gn
  | .lapack ld => ld * (e.gn - 1) + e.gm
  | .tri _ => triSize e.mb e.gm
  | .band _ lmt => lmt * e.mb * e.gn
  | .lband ld kl _ off => ld * (e.gn - 1) + (kl + off + 1)

theorem off_tile {e : MatEnv} (h : e.WF) (hk : e.kind = .tile) (m n i j : Nat) :
    e.off m n i j = goff e.mb e.nb e.gm e.gn m n i j := by
  have := (wfgen_general h.mb h.nb e.gm e.gn 0 0 e.gm e.gn).off_eq m n i j
  simp only [off, hk, this]
  simp [general]

theorem off_lapack {e : MatEnv} {l : Nat} (hk : e.kind = .lapack l) (m n i j : Nat) :
    e.off m n i j = (m * e.mb + i) + l * (n * e.nb + j) := by
  simp only [off, hk]; ring

theorem off_tri {e : MatEnv} (h : e.WF) {u : Uplo} (hk : e.kind = .tri u) (m n i j : Nat) :
    e.off m n i j = (triangular (u = .upper) e.mb e.gm 0 0 e.gm e.gm).off m n i j := by
  simp only [off, hk, ← (h.sq u hk).2]

theorem inTri_up {u : Uplo} {m n : Nat} :
    inTri u m n ↔ if (decide (u = .upper) : Bool) then m ≤ n else n ≤ m := by
  cases u <;> simp [inTri]

theorem off_band {e : MatEnv} (h : e.WF) {kut lmt : Nat} (hk : e.kind = .band kut lmt) (m n i j : Nat) :
    e.off m n i j = goff e.mb e.nb (lmt * e.mb) e.gn ((kut - 1) + m - n) n i j := by
  have := (wfgen_general h.mb h.nb (lmt * e.mb) e.gn 0 0 (lmt * e.mb) e.gn).off_eq ((kut - 1) + m - n) n i j
  simp only [off, hk, this]
  simp [general]

/-- A stored element of a band tile is an element of the underlying general layout. -/
theorem band_tileOK {mb nb gm gn lmt q m n i j : Nat} (hq : q < lmt)
    (h1 : TileOK mb nb gm gn m n i j) : TileOK mb nb (lmt * mb) gn q n i j := by
  rw [tileOK_iff] at h1 ⊢
  refine ⟨h1.1, ?_, h1.2.2⟩
  have : (q + 1) * mb ≤ lmt * mb := Nat.mul_le_mul_right _ hq
  have h2 : (q + 1) * mb = q * mb + mb := by ring
  omega

theorem off_inj {e : MatEnv} (h : e.WF) {m n i j m' n' i' j' : Nat}
    (h1 : TileOK e.mb e.nb e.gm e.gn m n i j) (s1 : e.stored m n i j)
    (h2 : TileOK e.mb e.nb e.gm e.gn m' n' i' j') (s2 : e.stored m' n' i' j')
    (he : e.off m n i j = e.off m' n' i' j') : m = m' ∧ n = n' ∧ i = i' ∧ j = j' := by
  have pk : ∀ {b x x' y y' : Nat}, y < b → y' < b → x * b + y = x' * b + y' → x = x' ∧ y = y' := by
    intro b x x' y y' hy hy' he
    obtain ⟨a1, a2⟩ := pack_inj (i := y) (i' := y') (p := b) (j := x) (j' := x') hy hy' (by
      rw [Nat.mul_comm b x, Nat.mul_comm b x']; omega)
    exact ⟨a2, a1⟩
  cases hk : e.kind with
  | tile =>
    rw [off_tile h hk, off_tile h hk] at he
    exact goff_inj h.mb h.nb h1 h2 he
  | lapack l =>
    rw [off_lapack hk, off_lapack hk] at he
    rw [tileOK_iff] at h1 h2
    have hl := h.ld l hk
    obtain ⟨a1, a2⟩ := pack_inj (by omega) (by omega) he
    obtain ⟨b1, b2⟩ := pk h1.1 h2.1 a1
    obtain ⟨c1, c2⟩ := pk h1.2.2.1 h2.2.2.1 a2
    exact ⟨b1, c1, b2, c2⟩
  | tri u =>
    rw [off_tri h hk, off_tri h hk] at he
    simp only [stored, hk] at s1 s2
    rw [← (h.sq u hk).1, ← (h.sq u hk).2] at h1 h2
    exact tri_off_inj h.mb h1 (inTri_up.mp s1) h2 (inTri_up.mp s2) he
  | band kut lmt =>
    rw [off_band h hk, off_band h hk] at he
    simp only [stored, hk] at s1 s2
    obtain ⟨a1, a2, a3, a4⟩ := goff_inj h.mb h.nb (band_tileOK s1.2 h1) (band_tileOK s2.2 h2) he
    exact ⟨by omega, a2, a3, a4⟩
  | lband l kl ku of =>
    simp only [stored, hk] at s1 s2
    simp only [off, hk] at he
    rw [tileOK_iff] at h1 h2
    obtain ⟨hl, ho⟩ := h.bd l kl ku of hk
    rw [Nat.mul_comm _ l, Nat.mul_comm _ l] at he
    have p1 : n * e.nb + j ≤ l * (n * e.nb + j) := Nat.le_mul_of_pos_left _ (by omega)
    have p2 : n' * e.nb + j' ≤ l * (n' * e.nb + j') := Nat.le_mul_of_pos_left _ (by omega)
    have he : (ku + (m * e.mb + i) - (n * e.nb + j)) + l * (n * e.nb + j) =
        (ku + (m' * e.mb + i') - (n' * e.nb + j')) + l * (n' * e.nb + j') := by omega
    obtain ⟨a1, a2⟩ := pack_inj (by omega) (by omega) he
    obtain ⟨c1, c2⟩ := pk h1.2.2.1 h2.2.2.1 a2
    obtain ⟨b1, b2⟩ := pk (x := m) (x' := m') h1.1 h2.1 (by omega)
    exact ⟨b1, c1, b2, c2⟩

/-- No element access leaves the allocation. -/
theorem off_lt {e : MatEnv} (h : e.WF) {m n i j : Nat}
    (h1 : TileOK e.mb e.nb e.gm e.gn m n i j) (s1 : e.stored m n i j) : e.off m n i j < e.size := by
  cases hk : e.kind with
  | tile =>
    rw [off_tile h hk]
    simp only [size, hk]
    exact goff_lt h.mb h.nb h1
  | lapack l =>
    rw [off_lapack hk]
    simp only [size, hk]
    rw [tileOK_iff] at h1
    have : l * (n * e.nb + j) ≤ l * (e.gn - 1) := Nat.mul_le_mul_left _ (by omega)
    omega
  | tri u =>
    rw [off_tri h hk]
    simp only [size, hk]
    simp only [stored, hk] at s1
    rw [← (h.sq u hk).1, ← (h.sq u hk).2] at h1
    exact tri_off_lt h.mb h1 (inTri_up.mp s1)
  | band kut lmt =>
    rw [off_band h hk]
    simp only [size, hk]
    simp only [stored, hk] at s1
    exact goff_lt h.mb h.nb (band_tileOK s1.2 h1)
  | lband l kl ku of =>
    simp only [stored, hk] at s1
    simp only [off, size, hk]
    have hl := (h.bd l kl ku of hk).1
    rw [tileOK_iff] at h1
    have : l * (n * e.nb + j) ≤ l * (e.gn - 1) := Nat.mul_le_mul_left _ (by omega)
    have p1 : n * e.nb + j ≤ l * (n * e.nb + j) := Nat.le_mul_of_pos_left _ (by omega)
    rw [Nat.mul_comm _ l]
    omega

end MatEnv

variable {M : Type u}

/-- Location of an element: buffer and offset. -/
def eloc (env : M → MatEnv) (t : M × Nat × Nat) (i j : Nat) : M × Nat :=
  (t.1, (env t.1).off t.2.1 t.2.2 i j)

/-- Elements that exist. -/
def evalid (env : M → MatEnv) : Foot (M × Nat × Nat) := fun t i j =>
  TileOK (env t.1).mb (env t.1).nb (env t.1).gm (env t.1).gn t.2.1 t.2.2 i j ∧
    (env t.1).stored t.2.1 t.2.2 i j

/-- Address of a tile, as used in `depend` clauses. -/
def ekey (env : M → MatEnv) (t : M × Nat × Nat) : M × Nat := eloc env t 0 0

theorem env_inj {env : M → MatEnv} (h : ∀ a, (env a).WF) : InjOn (eloc env) (evalid env) := by
  rintro ⟨a, m, n⟩ i j ⟨a', m', n'⟩ i' j' hv hv' he
  have h1 : a = a' := congrArg Prod.fst he
  subst h1
  have h2 : (env a).off m n i j = (env a).off m' n' i' j' := congrArg Prod.snd he
  obtain ⟨rfl, rfl, rfl, rfl⟩ := MatEnv.off_inj (h a) hv.1 hv.2 hv'.1 hv'.2 h2
  exact ⟨rfl, rfl, rfl⟩

/-- The matrix described by `A` lies in the allocation `A.id`, in tiles of size `b`; the
tiles `(m, n)` with `P m n` are stored completely. -/
structure FitsOn (env : M → MatEnv) (b : Nat) (P : Nat → Nat → Prop) (A : TMat M) : Prop where
  al : A.Al b
  mb : (env A.id).mb = b
  nb : (env A.id).nb = b
  rows : A.d.i + A.d.m ≤ (env A.id).gm
  cols : A.d.j + A.d.n ≤ (env A.id).gn
  st : ∀ m n i j, P m n → (env A.id).stored (m + A.d.i / b) (n + A.d.j / b) i j

/-- All tiles of the matrix are stored. -/
abbrev Fits (env : M → MatEnv) (b : Nat) (A : TMat M) : Prop := FitsOn env b (fun _ _ => True) A

theorem FitsOn.mono {env : M → MatEnv} {b : Nat} {P Q : Nat → Nat → Prop} {A : TMat M}
    (h : FitsOn env b P A) (hQ : ∀ m n, Q m n → P m n) : FitsOn env b Q A :=
  ⟨h.al, h.mb, h.nb, h.rows, h.cols, fun m n i j hq => h.st m n i j (hQ m n hq)⟩

theorem FitsOn.validOn {env : M → MatEnv} {b : Nat} {P : Nat → Nat → Prop} {A : TMat M}
    (h : FitsOn env b P A) {m n i j : Nat} (hP : P m n)
    (hi : i < tdim A.d.m b m) (hj : j < tdim A.d.n b n) : evalid env (A.at' m n) i j := by
  rw [tdim_row] at hi hj
  obtain ⟨q, hq⟩ := Nat.dvd_of_mod_eq_zero h.al.i
  obtain ⟨q', hq'⟩ := Nat.dvd_of_mod_eq_zero h.al.j
  have hb := h.al.pos
  have e1 : A.d.i / b = q := by rw [hq, Nat.mul_div_cancel_left _ hb]
  have e2 : A.d.j / b = q' := by rw [hq', Nat.mul_div_cancel_left _ hb]
  have hst := h.st m n i j hP
  rw [e1, e2] at hst
  simp only [evalid, TMat.at', h.mb, h.nb, tileOK_iff, h.al.mb, h.al.nb, e1, e2]
  refine ⟨?_, hst⟩
  have hr := h.rows
  have hc := h.cols
  have m1 : (m + q) * b = m * b + b * q := by ring
  have m2 : (n + q') * b = n * b + b * q' := by ring
  omega

theorem FitsOn.valid {env : M → MatEnv} {b : Nat} {A : TMat M} (h : Fits env b A) {m n i j : Nat}
    (hi : i < tdim A.d.m b m) (hj : j < tdim A.d.n b n) : evalid env (A.at' m n) i j :=
  h.validOn trivial hi hj

/-- Initial/final memory seen through a fully covering LAPACK-layout matrix. -/
theorem el_view_lapack {α : Type v} {env : M → MatEnv} {id : M} {b m n l : Nat} (hb : 0 < b)
    (he : env id = ⟨.lapack l, b, b, m, n⟩) (mem : M × Nat → α) (r c : Nat) :
    (TMat.full id b m n).el (view (eloc env) mem) r c = mem (id, r + c * l) := by
  simp only [TMat.el, TMat.full, view, eloc, TMat.at', general]
  rw [he, MatEnv.off_lapack (l := l) rfl]
  simp only [Nat.zero_div, Nat.add_zero]
  congr 2
  have h1 : r / b * b + r % b = r := by rw [Nat.mul_comm]; exact Nat.div_add_mod r b
  have h2 : c / b * b + c % b = c := by rw [Nat.mul_comm]; exact Nat.div_add_mod c b
  rw [h1, h2]; ring

end Verif.Tile

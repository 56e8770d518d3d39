/-
Memory of `plasma_zhetrf`, `plasma_zhetrs` and `plasma_zhesv`.
-/
import Verif.HesvCov
import Verif.DriverB

set_option linter.unusedSectionVars false

namespace Verif.Tile

open Verif.Layout Verif.Sched Verif.LU Verif.Panel Verif.Aasen

universe v w

/-- Parameters of a call: tile size, order, right-hand sides, leading dimensions of `pA`, `pT`, `pB`, tile rows of the
allocation of `T`. -/
structure HPar where
  nb : Nat
  n : Nat
  nrhs : Nat
  lda : Nat
  ldt : Nat
  ldb : Nat
  lmt : Nat

namespace HPar

/-- Memory (compute/zhesv.c:153-195, compute/zhetrf.c:143-167): the user's arrays `pT`, `pB`, `ipiv2`, `pA`, `ipiv`; the tile matrices
`T`, `B`, `A` and the workspace `W`. -/
def env (p : HPar) : Buf → MatEnv
  | .usr 0 => ⟨.lband p.ldt (2 * p.nb - 1) (2 * p.nb) (2 * p.nb), p.nb, p.nb, p.n, p.n⟩
  | .til 0 => ⟨.band 3 p.lmt, p.nb, p.nb, p.n, p.n⟩
  | .usr 1 => ⟨.lapack p.ldb, p.nb, p.nb, p.n, p.nrhs⟩
  | .til 1 => ⟨.tile, p.nb, p.nb, p.n, p.nrhs⟩
  | .usr 2 => ⟨.lapack p.n, p.nb, p.nb, p.n, 1⟩
  | .usr 3 => ⟨.lapack p.lda, p.nb, p.nb, p.n, p.n⟩
  | .til 3 => ⟨.tri .lower, p.nb, p.nb, p.n, p.n⟩
  | .usr 4 => ⟨.lapack p.n, p.nb, p.nb, p.n, 1⟩
  | .til 5 => ⟨.tile, p.nb, p.nb, (1 + (4 + 3) * ceilDiv p.n p.nb) * p.nb, p.nb⟩
  | _ => ⟨.tile, p.nb, p.nb, 0, 0⟩

/-- The user's band array. -/
def uT (p : HPar) : TMat Buf := TMat.full (.usr 0) p.nb p.n p.n
/-- The descriptor `T` (compute/zhesv.c:162-164, compute/zhetrf.c:150-152). -/
def tT (p : HPar) : TMat Buf := bandT (.til 0) none p.nb (p.nb * p.lmt) p.n p.nb p.nb
/-- The user's right-hand sides. -/
def uB (p : HPar) : TMat Buf := TMat.full (.usr 1) p.nb p.n p.nrhs
/-- The descriptor `B` (compute/zhesv.c:169-170). -/
def tB (p : HPar) : TMat Buf := TMat.full (.til 1) p.nb p.n p.nrhs
/-- `ipiv2`. -/
def uQ (p : HPar) : TMat Buf := TMat.full (.usr 2) p.nb p.n 1
/-- The user's matrix. -/
def uA (p : HPar) : TMat Buf := TMat.full (.usr 3) p.nb p.n p.n
/-- The descriptor `A` (compute/zhesv.c:156-157): tiles of the lower triangle. -/
def tA (p : HPar) : TMat Buf := TMat.full (.til 3) p.nb p.n p.n
/-- `ipiv`. -/
def uP (p : HPar) : TMat Buf := TMat.full (.usr 4) p.nb p.n 1
/-- The workspace (compute/zhesv.c:178-182). -/
def tW (p : HPar) : TMat Buf := TMat.full (.til 5) p.nb ((1 + (4 + 3) * ceilDiv p.n p.nb) * p.nb) p.nb

/-- Valid arguments; the order is larger than the tile size, otherwise the call is refused (`C76`). -/
structure OK (p : HPar) : Prop where
  pos : 0 < p.nb
  n : p.nb < p.n
  lda : p.n ≤ p.lda
  ldt : 4 * p.nb ≤ p.ldt
  ldb : p.n ≤ p.ldb
  lmt : 4 ≤ p.lmt

/-- The configuration of the Aasen factorization. -/
def cfg (p : HPar) (ib mpt mth : Nat) : AC := ⟨p.n, p.nb, ib, mpt, mth⟩
/-- The matrices of the Aasen factorization. -/
def mats (p : HPar) : AM Buf := ⟨p.tA, p.tT, p.tW, p.uP⟩

variable {p : HPar} {α : Type v} {ib mpt mth : Nat}

theorem OK.wf (h : p.OK) : ∀ a, (p.env a).WF := by
  have hp := h.pos
  have h1 := h.ldt
  have h2 := h.ldb
  have h3 := h.lda
  intro a
  unfold env
  split <;> constructor <;> simp <;> omega

theorem OK.cfg (h : p.OK) (hib : 0 < ib) (hmpt : 0 < mpt) : (p.cfg ib mpt mth).OK := ⟨h.pos, hib, hmpt⟩

theorem al_uT (h : p.OK) : p.uT.Al p.nb := TMat.al_full _ h.pos _ _
theorem al_tT (h : p.OK) : p.tT.Al p.nb := bandT_al _ _ h.pos _ _ _ _
theorem al_uA (h : p.OK) : p.uA.Al p.nb := TMat.al_full _ h.pos _ _
theorem al_tA (h : p.OK) : p.tA.Al p.nb := TMat.al_full _ h.pos _ _
theorem al_uB (h : p.OK) : p.uB.Al p.nb := TMat.al_full _ h.pos _ _
theorem al_tB (h : p.OK) : p.tB.Al p.nb := TMat.al_full _ h.pos _ _

theorem bT_iff {b : Nat} (hb : 0 < b) {m n : Nat} : bTile none b b b m n ↔ n ≤ m + 2 ∧ m ≤ n + 1 := by
  have e1 : n * b < m * b + b + (b + b) ↔ n ≤ m + 2 := by
    rw [show m * b + b + (b + b) = (m + 3) * b by ring]
    exact (Nat.mul_lt_mul_right hb).trans (by omega)
  have e2 : m * b < n * b + b + b ↔ m ≤ n + 1 := by
    rw [show n * b + b + b = (n + 2) * b by ring]
    exact (Nat.mul_lt_mul_right hb).trans (by omega)
  simp only [bTile]
  rw [e1, e2]

/-- Tiles of the band are stored. -/
theorem fits_tT (h : p.OK) : FitsOn p.env p.nb (bTile none p.nb p.nb p.nb) p.tT where
  al := al_tT h
  mb := rfl
  nb := rfl
  rows := by simp [tT, bandT, general, env]
  cols := by simp [tT, bandT, general, env]
  st := by
    intro m n i j ht
    have := h.lmt
    rw [bT_iff h.pos] at ht
    have i0 : p.tT.d.i = 0 := rfl
    have j0 : p.tT.d.j = 0 := rfl
    rw [i0, j0, Nat.zero_div, Nat.add_zero, Nat.add_zero]
    show n ≤ (3 - 1) + m ∧ (3 - 1) + m - n < p.lmt
    omega

theorem vT (h : p.OK) : ∀ m n i j, bTile none p.nb p.tT.d.kl p.tT.d.ku m n → i < tdim p.n p.nb m →
    j < tdim p.n p.nb n → evalid p.env (p.tT.at' m n) i j :=
  fun _ _ _ _ ht hi hj => (fits_tT h).validOn ht hi hj

theorem vU (h : p.OK) : ∀ m n i j, bTile none p.nb p.tT.d.kl p.tT.d.ku m n → i < tdim p.n p.nb m →
    j < tdim p.n p.nb n → inB none p.nb p.tT.d.kl p.tT.d.ku m n (m * p.nb + i) (n * p.nb + j) →
    evalid p.env (p.uT.at' m n) i j := by
  intro m n i j ht hi hj hB
  have hb := h.pos
  rw [tdim_row] at hi hj
  have e : p.uT.at' m n = (.usr 0, m, n) := by simp [uT, TMat.full, TMat.at', general]
  rw [e]
  refine ⟨?_, ?_⟩
  · show TileOK p.nb p.nb p.n p.n m n i j
    rw [tileOK_iff]
    omega
  · show n * p.nb + j ≤ 2 * p.nb + (m * p.nb + i) ∧ m * p.nb + i ≤ 2 * p.nb - 1 + (n * p.nb + j)
    change bTile none p.nb p.nb p.nb m n at ht
    change inB none p.nb p.nb p.nb m n (m * p.nb + i) (n * p.nb + j) at hB
    rw [bT_iff hb] at ht
    have f4 : m ≤ n → m * p.nb ≤ n * p.nb := fun h => Nat.mul_le_mul_right p.nb h
    have f5 : n ≤ m → n * p.nb ≤ m * p.nb := fun h => Nat.mul_le_mul_right p.nb h
    have f6 : m ≤ n + 1 → m * p.nb ≤ n * p.nb + p.nb := fun h => by
      have := Nat.mul_le_mul_right p.nb h
      rw [Nat.add_mul] at this; omega
    simp only [inB] at hB
    generalize m * p.nb = X at *
    generalize n * p.nb = Y at *
    omega

theorem fits_tA (h : p.OK) : FitsOn p.env p.nb (fun i j => j ≤ i) p.tA where
  al := al_tA h
  mb := rfl
  nb := rfl
  rows := by simp [tA, TMat.full, general, env]
  cols := by simp [tA, TMat.full, general, env]
  st := by
    intro m n i j ht
    have i0 : p.tA.d.i = 0 := rfl
    have j0 : p.tA.d.j = 0 := rfl
    rw [i0, j0, Nat.zero_div, Nat.add_zero, Nat.add_zero]
    show inTri .lower m n
    simpa [inTri] using ht

theorem fits_uA (h : p.OK) : Fits p.env p.nb p.uA := fits_full (k := .lapack p.lda) h.pos rfl (Or.inr ⟨_, rfl⟩)
theorem fits_uB (h : p.OK) : Fits p.env p.nb p.uB := fits_full (k := .lapack p.ldb) h.pos rfl (Or.inr ⟨_, rfl⟩)
theorem fits_uP (h : p.OK) : Fits p.env p.nb p.uP := fits_full (k := .lapack p.n) h.pos rfl (Or.inr ⟨_, rfl⟩)
theorem fits_uQ (h : p.OK) : Fits p.env p.nb p.uQ := fits_full (k := .lapack p.n) h.pos rfl (Or.inr ⟨_, rfl⟩)
theorem fits_tB (h : p.OK) : Fits p.env p.nb p.tB := fits_full (k := .tile) h.pos rfl (Or.inl rfl)

theorem mats_ok (h : p.OK) : AMOK (p.cfg ib mpt mth) p.mats where
  a := al_tA h
  t := al_tT h
  p := TMat.al_full _ h.pos _ _
  at' := by simp [mats, tA, tT, TMat.full, bandT]
  aw := by simp [mats, tA, tW, TMat.full]
  ap := by simp [mats, tA, uP, TMat.full]
  tw := by simp [mats, tT, tW, TMat.full, bandT]
  tp := by simp [mats, tT, uP, TMat.full, bandT]
  wp := by simp [mats, tW, uP, TMat.full]

theorem mats_fit (h : p.OK) : AFit p.env (p.cfg ib mpt mth) p.mats where
  fa := fits_tA h
  am := rfl
  an := rfl
  ft := fits_tT h
  tm := rfl
  tn := rfl
  w := by
    intro q i j hq hi hj
    have e : p.mats.W.at' q 0 = (.til 5, q, 0) := by simp [mats, tW, TMat.full, TMat.at', general]
    rw [e]
    refine ⟨?_, trivial⟩
    show TileOK p.nb p.nb ((1 + (4 + 3) * ceilDiv p.n p.nb) * p.nb) p.nb q 0 i j
    rw [tileOK_iff]
    have hi' : i < p.nb := hi
    have hj' : j < p.nb := hj
    have : (q + 1) * p.nb ≤ (1 + (4 + 3) * ceilDiv p.n p.nb) * p.nb := by
      refine Nat.mul_le_mul_right _ ?_
      have : q < 1 + 4 * ceilDiv p.n p.nb + 3 * ceilDiv p.n p.nb := hq
      omega
    rw [Nat.succ_mul] at this
    refine ⟨hi', by omega, hj', by omega⟩
  fp := fits_uP h
  pm := rfl
  pn := rfl

theorem gbOK (h : p.OK) (hib : 0 < ib) (hmpt : 0 < mpt) : GbOK p.nb p.n p.nb p.nb p.tT p.uQ ib mpt where
  a := al_tT h
  p := TMat.al_full _ h.pos _ _
  ne := by simp [tT, uQ, bandT, TMat.full]
  m := rfl
  n := rfl
  Pm := rfl
  Pn := rfl
  hib := hib
  hmpt := hmpt
  hkl := rfl
  klt := by simp [tT, bandT]
  kut := by simp [tT, bandT]

theorem gbFit (h : p.OK) (hib : 0 < ib) (hmpt : 0 < mpt) : GbFit p.env p.nb p.n p.nb p.nb p.tT p.uQ ib mpt :=
  ⟨gbOK h hib hmpt, fits_tT h, fits_uQ h⟩

theorem hsOK (h : p.OK) : HsOK p.nb p.n p.nrhs p.tA p.tT p.uP p.uQ p.tB where
  a := al_tA h
  am := rfl
  an := rfl
  tb := ⟨gbOK h Nat.one_pos Nat.one_pos, al_tB h, rfl, rfl, by simp [tT, tB, bandT, TMat.full], by simp [tB, uQ, TMat.full]⟩
  ab := by simp [tA, tB, TMat.full]
  pb := by simp [uP, tB, TMat.full]

theorem hsFit (h : p.OK) : HsFit p.env p.nb p.tA p.tT p.uP p.uQ p.tB :=
  ⟨fits_tA h, fits_tT h, fits_uP h, fits_uQ h, fits_tB h, rfl, rfl⟩

/-- The sections of `T` used in the `depend` clauses exist. -/
theorem gb_sec {rg : Bool} (h : p.OK) (hrg : rg = true → p.n ≤ p.nb * p.lmt) :
    ∀ k, k < p.tT.d.mt → gbSec rg p.tT k = true := by
  intro k hk
  rw [(al_tT h).lt_mt] at hk
  unfold gbSec
  cases rg
  · rfl
  · have h1 := hrg rfl
    have e1 : p.tT.d.mb = p.nb := rfl
    have e2 : p.tT.d.gm = p.nb * p.lmt := rfl
    have hk' : k * p.nb < p.n := hk
    simp only [Bool.not_true, Bool.false_or, decide_eq_true_eq]
    rw [e1, e2]
    exact lt_of_lt_of_le hk' h1

/-! ### The user's arrays -/

theorem uT_el (h : p.OK) (mem : Buf × Nat → α) (r c : Nat) :
    p.uT.el (view (eloc p.env) mem) r c = mem (.usr 0, 2 * p.nb + r + c * p.ldt - c) := by
  have e : ∀ m n, p.uT.at' m n = (.usr 0, m, n) := by
    intro m n; simp [uT, TMat.full, TMat.at', general]
  unfold TMat.el
  rw [e]
  show mem (.usr 0, 2 * p.nb + (r / p.nb * p.nb + r % p.nb) +
    (c / p.nb * p.nb + c % p.nb) * p.ldt - (c / p.nb * p.nb + c % p.nb)) = _
  rw [divmod, divmod]

theorem uA_el (h : p.OK) (mem : Buf × Nat → α) (r c : Nat) :
    p.uA.el (view (eloc p.env) mem) r c = mem (.usr 3, r + c * p.lda) :=
  el_view_lapack (env := p.env) (id := .usr 3) h.pos rfl mem r c

theorem uB_el (h : p.OK) (mem : Buf × Nat → α) (r c : Nat) :
    p.uB.el (view (eloc p.env) mem) r c = mem (.usr 1, r + c * p.ldb) :=
  el_view_lapack (env := p.env) (id := .usr 1) h.pos rfl mem r c

theorem uP_el (h : p.OK) (mem : Buf × Nat → α) (i : Nat) :
    p.uP.el (view (eloc p.env) mem) i 0 = mem (.usr 4, i) := by
  refine (el_view_lapack (env := p.env) (id := .usr 4) (l := p.n) h.pos rfl mem i 0).trans ?_
  rw [Nat.zero_mul, Nat.add_zero]

theorem uQ_el (h : p.OK) (mem : Buf × Nat → α) (i : Nat) :
    p.uQ.el (view (eloc p.env) mem) i 0 = mem (.usr 2, i) := by
  refine (el_view_lapack (env := p.env) (id := .usr 2) (l := p.n) h.pos rfl mem i 0).trans ?_
  rw [Nat.zero_mul, Nat.add_zero]

/-! ### The conversions -/

theorem sqA (h : p.OK) : stSq (some Uplo.lower) p.tA.d.mt p.tA.d.nt := by
  right
  rw [(al_tA h).mt_eq, (al_tA h).nt_eq]
  rfl

theorem fits_tA' (h : p.OK) : FitsOn p.env p.nb (stOK (some .lower)) p.tA :=
  (fits_tA h).mono fun m n h => by simpa [stOK, inTri] using h

/-- `plasma_omp_ztr2desc` (compute/zhesv.c:226). -/
def inA (p : HPar) : List (TTask (Buf × Nat × Nat) α) := copyK (some .lower) p.tA p.uA p.tA
/-- `plasma_omp_zdesc2tr` (compute/zhetrf.c:204). -/
def outA (p : HPar) : List (TTask (Buf × Nat × Nat) α) := copyK (some .lower) p.tA p.tA p.uA

theorem inA_good (h : p.OK) : Good (evalid p.env) (inA (α := α) p) :=
  copyK_good (al_tA h) (sqA h) ((fits_uA h).mono fun _ _ _ => trivial) (fits_tA' h) le_rfl le_rfl le_rfl le_rfl

theorem outA_good (h : p.OK) : Good (evalid p.env) (outA (α := α) p) :=
  copyK_good (al_tA h) (sqA h) (fits_tA' h) ((fits_uA h).mono fun _ _ _ => trivial) le_rfl le_rfl le_rfl le_rfl

theorem inT_good [Zero α] (h : p.OK) : Good (evalid p.env) (pzpb2desc (α := α) none p.uT p.tT) :=
  pzpb2desc_good (al_tT h) (N := p.n) rfl rfl (vT h) (vU h)

theorem outT_good (h : p.OK) : Good (evalid p.env) (pzdesc2pb (α := α) none p.tT p.uT) :=
  pzdesc2pb_good (al_tT h) (N := p.n) rfl rfl (vT h) (vU h)

theorem inB_good (h : p.OK) : Good (evalid p.env) (pzge2desc (α := α) p.uB p.tB) :=
  copyTasks_good (al_tB h) (fits_uB h) (fits_tB h) le_rfl le_rfl le_rfl le_rfl

theorem outB_good (h : p.OK) : Good (evalid p.env) (pzdesc2ge (α := α) p.tB p.uB) :=
  copyTasks_good (al_tB h) (fits_tB h) (fits_uB h) le_rfl le_rfl le_rfl le_rfl

theorem inA_wr (h : p.OK) : Writes (fun x => x.1 = Buf.til 3) (inA (α := α) p) :=
  (copyK_writes (sqA h)).mono (by rintro t ⟨m, n, rfl, -⟩; rfl)

theorem outA_wr (h : p.OK) : Writes (fun x => x.1 = Buf.usr 3) (outA (α := α) p) :=
  (copyK_writes (sqA h)).mono (by rintro t ⟨m, n, rfl, -⟩; rfl)

theorem inT_wr [Zero α] (h : p.OK) : Writes (fun x => x.1 = Buf.til 0) (pzpb2desc (α := α) none p.uT p.tT) := by
  intro t ht x i j hx
  obtain ⟨m, l, e, -⟩ := pzpb2desc_wr (N := p.n) (al_tT h) rfl rfl t ht x i j hx
  rw [e]; rfl

theorem outT_wr (h : p.OK) : Writes (fun x => x.1 = Buf.usr 0) (pzdesc2pb (α := α) none p.tT p.uT) := by
  intro t ht x i j hx
  obtain ⟨m, l, e, -⟩ := pzdesc2pb_wr (N := p.n) (al_tT h) rfl rfl t ht x i j hx
  rw [e]; rfl

theorem inB_wr : Writes (fun x => x.1 = Buf.til 1) (pzge2desc (α := α) p.uB p.tB) := copyTasks_writes (A := p.tB)
theorem outB_wr : Writes (fun x => x.1 = Buf.usr 1) (pzdesc2ge (α := α) p.tB p.uB) := copyTasks_writes (A := p.tB)

theorem inA_el (h : p.OK) (s : Store (Buf × Nat × Nat) α) {r c : Nat} (hr : r < p.n) (hc : c < p.n) (hl : c ≤ r) :
    p.tA.el (texec (inA p) s) r c = p.uA.el s r c :=
  copyK_el (al_tA h) (al_uA h) (al_tA h) (sqA h) (by simp [uA, tA, TMat.full]) s hr hc
    (by show c / p.nb ≤ r / p.nb; exact Nat.div_le_div_right hl)

theorem outA_el (h : p.OK) (s : Store (Buf × Nat × Nat) α) {r c : Nat} (hr : r < p.n) (hc : c < p.n) (hl : c / p.nb ≤ r / p.nb) :
    p.uA.el (texec (outA p) s) r c = p.tA.el s r c :=
  copyK_el (al_tA h) (al_tA h) (al_uA h) (sqA h) (by simp [uA, tA, TMat.full]) s hr hc hl

theorem inT_el [Zero α] (h : p.OK) (s : Store (Buf × Nat × Nat) α) {r c : Nat} (hr : r < p.n) (hc : c < p.n)
    (ht : bTile none p.nb p.nb p.nb (r / p.nb) (c / p.nb)) :
    p.tT.el (texec (pzpb2desc none p.uT p.tT) s) r c =
      if inB none p.nb p.nb p.nb (r / p.nb) (c / p.nb) r c then p.uT.el s r c else 0 :=
  pzpb2desc_el (N := p.n) (al_tT h) (al_uT h) rfl rfl (by simp [uT, tT, TMat.full, bandT]) _ hr hc ht

theorem outT_el (h : p.OK) (s : Store (Buf × Nat × Nat) α) {r c : Nat} (hr : r < p.n) (hc : c < p.n)
    (ht : bTile none p.nb p.nb p.nb (r / p.nb) (c / p.nb)) :
    p.uT.el (texec (pzdesc2pb none p.tT p.uT) s) r c =
      if inB none p.nb p.nb p.nb (r / p.nb) (c / p.nb) r c then p.tT.el s r c else p.uT.el s r c :=
  pzdesc2pb_el (N := p.n) (al_tT h) (al_uT h) rfl rfl (by simp [uT, tT, TMat.full, bandT]) _ hr hc ht

theorem inB_el (h : p.OK) (s : Store (Buf × Nat × Nat) α) {r c : Nat} (hr : r < p.n) (hc : c < p.nrhs) :
    p.tB.el (texec (pzge2desc p.uB p.tB) s) r c = p.uB.el s r c :=
  copyTasks_el (al_tB h) (al_uB h) (al_tB h) (by simp [uB, tB, TMat.full]) s hr hc

theorem outB_el (h : p.OK) (s : Store (Buf × Nat × Nat) α) {r c : Nat} (hr : r < p.n) (hc : c < p.nrhs) :
    p.uB.el (texec (pzdesc2ge p.tB p.uB) s) r c = p.tB.el s r c :=
  copyTasks_el (al_tB h) (al_tB h) (al_uB h) (by simp [uB, tB, TMat.full]) s hr hc

end HPar

end Verif.Tile

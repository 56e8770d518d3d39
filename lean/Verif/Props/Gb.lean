/-
Properties of `plasma_zgbtrf`, `plasma_zgbtrs` and `plasma_zgbsv`: C64, C65, C66.
-/
import Verif.Props.Band
import Verif.Props.LuSolve
import Verif.GbtrfGood
import Verif.GbMath
import Verif.TbsmP

set_option linter.unusedSectionVars false

namespace Verif.Props

open Verif.Layout Verif.Sched Verif.Tile Verif.LU Verif.Panel Finset

universe v w

variable {α : Type v} [Field α] [StarRing α] [DecidableEq α] {γ : Type w} [LinearOrder γ]

/-- A call of a driver for general band matrices (compute/zgbsv.c:63-175, compute/zgbtrf.c:55-149,
compute/zgbtrs.c:81-191): the descriptor of `B` has `n` rows. -/
def gvPar (nb n kl ku ldab nrhs ldb : Nat) : BPar := ⟨nb, none, n, kl, ku, ldab, nrhs, n, ldb⟩

/-- The band matrix in LAPACK storage with room for fill-in (compute/zgbsv.c:38-47): element
`(r, c)` is in row `kl + ku + r - c` of column `c` of the array; zero outside the band. -/
def gbA {α : Type v} [Zero α] (kl ku ldab : Nat) (mem : Buf × Nat → α) (r c : Nat) : α :=
  if c ≤ r + ku ∧ r ≤ c + kl then mem (.usr 0, (kl + ku + r - c) + c * ldab) else 0

/-- The upper factor in the same storage: `kl + ku` superdiagonals. -/
def gbUp {α : Type v} [Zero α] (kl ku ldab : Nat) (mem : Buf × Nat → α) (r c : Nat) : α :=
  if r ≤ c ∧ c ≤ r + (kl + ku) then mem (.usr 0, (kl + ku + r - c) + c * ldab) else 0

/-- What the conversion to tiles takes for the matrix (compute/pzpb2desc.c:27-65): it copies whole
diagonal tiles, `kl + ku` superdiagonals, and `kl + nb` subdiagonals. -/
def gbU {α : Type v} [Zero α] (nb kl ku ldab : Nat) (mem : Buf × Nat → α) (r c : Nat) : α :=
  if bTile none nb kl ku (r / nb) (c / nb) ∧ inB none nb kl ku (r / nb) (c / nb) r c then
    mem (.usr 0, (ku + kl) + r + c * ldab - c) else 0

/-- Array elements next to the band, read by the conversion, are zero. -/
def GbPad {α : Type v} [Zero α] (nb kl ku ldab n : Nat) (mem : Buf × Nat → α) : Prop :=
  ∀ r c, r < n → c < n → r ≤ c + (kl + nb) → c ≤ r + max (ku + kl) (nb - 1) → (c + kl < r ∨ r + ku < c) →
    mem (.usr 0, (ku + kl) + r + c * ldab - c) = 0

/-- Row interchanged with row `i`, as stored in `ipiv`. -/
def gpv (E : IntCode α) (mem : Buf × Nat → α) (i : Nat) : Nat := E.dec (mem (.usr 2, i)) - 1

/-- Tasks created by `plasma_zgbtrf` for a square matrix (compute/zgbtrf.c:55-149,186-216): three parallel
regions, hence three phases.  (For `kl ≥ n` or `ku ≥ n` the descriptor is rejected before any task is
created, control/descriptor.c:366-369; this includes `n = 0`.) -/
noncomputable def zgbtrf (rg : Bool) (E : IntCode α) (mag : α → γ) (dv : α → α → α) (big : α → Bool)
    (nb ib mpt n kl ku ldab : Nat) : List (GTTask (Buf × Nat × Nat) α) :=
  let p := gvPar nb n kl ku ldab 0 n
  okT (pzpb2desc none p.uA p.tA) ++ phG 1 (pzgbtrf rg E mag dv big ib mpt p.tA p.uP) ++
    okT ((pzdesc2pb none p.tA p.uA).map (phT 2))

/-- `plasma_omp_zgbtrs` (compute/zgbtrs.c:246-319). -/
def ompZgbtrs (E : IntCode α) (dv : α → α → α) (t : Trans) (A P B : TMat Buf) : List (TTask (Buf × Nat × Nat) α) :=
  if A.d.n = 0 ∨ B.d.n = 0 then [] else gbSolve 0 E dv t A P B

/-- Tasks created by `plasma_zgbtrs` for valid arguments (compute/zgbtrs.c:81-191), one parallel region;
the phases are those of the `taskwait`s in the solve. -/
def zgbtrs (E : IntCode α) (dv : α → α → α) (nb : Nat) (t : Trans) (n kl ku nrhs ldab ldb : Nat) :
    List (TTask (Buf × Nat × Nat) α) :=
  let p := gvPar nb n kl ku ldab nrhs ldb
  if max n nrhs = 0 then [] else
    (pzpb2desc none p.uA p.tA ++ pzge2desc p.uB p.tB) ++ ompZgbtrs E dv t p.tA p.uP p.tB ++
      (pzdesc2ge p.tB p.uB).map (phT (2 * (p.tB.d.mt * p.tB.d.nt)))

/-- `plasma_omp_zgbsv` (compute/zgbsv.c:215-266), in the second parallel region. -/
noncomputable def ompZgbsv (rg : Bool) (E : IntCode α) (mag : α → γ) (dv : α → α → α) (big : α → Bool)
    (ib mpt : Nat) (A P B : TMat Buf) : List (GTTask (Buf × Nat × Nat) α) :=
  if A.d.n = 0 ∨ B.d.n = 0 then [] else
    phG 1 (pzgbtrf rg E mag dv big ib mpt A P) ++ okT (gbSolve 1 E dv .noTrans A P B)

/-- Tasks created by `plasma_zgbsv` for valid arguments (compute/zgbsv.c:63-175): three parallel regions. -/
noncomputable def zgbsv (rg : Bool) (E : IntCode α) (mag : α → γ) (dv : α → α → α) (big : α → Bool)
    (nb ib mpt n kl ku nrhs ldab ldb : Nat) : List (GTTask (Buf × Nat × Nat) α) :=
  let p := gvPar nb n kl ku ldab nrhs ldb
  if min n nrhs = 0 then [] else
    okT (pzpb2desc none p.uA p.tA ++ pzge2desc p.uB p.tB) ++ ompZgbsv rg E mag dv big ib mpt p.tA p.uP p.tB ++
      okT ((pzdesc2pb none p.tA p.uA ++ pzdesc2ge p.tB p.uB).map (phT (2 + 2 * (p.tB.d.mt * p.tB.d.nt))))

section
variable {nb n kl ku ldab nrhs ldb ib mpt : Nat} {E : IntCode α} {mag : α → γ} {dv : α → α → α} {big : α → Bool}

theorem gb_ok (hnb : 0 < nb) (hl : (kl + nb) + max (ku + kl) (nb - 1) + 1 ≤ ldab) (hl' : n ≤ ldb) :
    (gvPar nb n kl ku ldab nrhs ldb).OK := ⟨hnb, hl, le_rfl, hl'⟩

theorem gb_uP (hnb : 0 < nb) : (gvPar nb n kl ku ldab nrhs ldb).uP.Al nb := TMat.al_full _ hnb _ _

theorem gb_fits_uP (hnb : 0 < nb) : Fits (gvPar nb n kl ku ldab nrhs ldb).env nb (gvPar nb n kl ku ldab nrhs ldb).uP :=
  fits_full (k := .lapack n) hnb rfl (Or.inr ⟨_, rfl⟩)

theorem gb_OK (hp : (gvPar nb n kl ku ldab nrhs ldb).OK) (hib : 0 < ib) (hmpt : 0 < mpt) :
    GbOK nb n kl ku (gvPar nb n kl ku ldab nrhs ldb).tA (gvPar nb n kl ku ldab nrhs ldb).uP ib mpt where
  a := BPar.al_tA hp
  p := gb_uP hp.pos
  ne := by simp [BPar.tA, BPar.uP, bandT, TMat.full]
  m := rfl
  n := rfl
  Pm := rfl
  Pn := rfl
  hib := hib
  hmpt := hmpt
  hkl := rfl
  klt := by simp [BPar.tA, bandT, gvPar]
  kut := by simp [BPar.tA, bandT, gvPar]

theorem gb_fit (hp : (gvPar nb n kl ku ldab nrhs ldb).OK) (hib : 0 < ib) (hmpt : 0 < mpt) :
    GbFit (gvPar nb n kl ku ldab nrhs ldb).env nb n kl ku (gvPar nb n kl ku ldab nrhs ldb).tA
      (gvPar nb n kl ku ldab nrhs ldb).uP ib mpt :=
  ⟨gb_OK hp hib hmpt, BPar.fits_tA hp, gb_fits_uP hp.pos⟩

theorem gb_tb (hp : (gvPar nb n kl ku ldab nrhs ldb).OK) (hib : 0 < ib) (hmpt : 0 < mpt) :
    TbOK nb n nrhs kl ku (gvPar nb n kl ku ldab nrhs ldb).tA (gvPar nb n kl ku ldab nrhs ldb).tB
      (gvPar nb n kl ku ldab nrhs ldb).uP ib mpt :=
  ⟨gb_OK hp hib hmpt, BPar.al_tB hp, rfl, rfl, by simp [BPar.tA, BPar.tB, bandT], by simp [BPar.tB, BPar.uP, TMat.full]⟩

theorem gb_sec {rg : Bool} (hp : (gvPar nb n kl ku ldab nrhs ldb).OK)
    (hrg : rg = true → n ≤ nb * (1 + (ku + kl + nb - 1) / nb + (kl + nb - 1) / nb)) :
    ∀ k, k < (gvPar nb n kl ku ldab nrhs ldb).tA.d.mt → gbSec rg (gvPar nb n kl ku ldab nrhs ldb).tA k = true := by
  intro k hk
  rw [(BPar.al_tA hp).lt_mt] at hk
  unfold gbSec
  cases rg
  · rfl
  · have h1 := hrg rfl
    have e1 : (gvPar nb n kl ku ldab nrhs ldb).tA.d.mb = nb := rfl
    have e2 : (gvPar nb n kl ku ldab nrhs ldb).tA.d.gm = nb * ((ku + kl + nb - 1) / nb + (kl + nb - 1) / nb + 1) := rfl
    have hk' : k * nb < n := hk
    simp only [Bool.not_true, Bool.false_or, decide_eq_true_eq]
    rw [e1, e2]
    refine lt_of_lt_of_le hk' (h1.trans (le_of_eq ?_))
    congr 1
    omega

theorem gwr_el {M : Type} {P : List (TTask (M × Nat × Nat) α)} {A : TMat M} {W : M × Nat × Nat → Prop} (h : Writes W P)
    (hx : ∀ m l, ¬ W (A.id, m, l)) (s : Store (M × Nat × Nat) α) : A.el (texec P s) = A.el s := by
  funext r c
  simp only [TMat.el]
  rw [h.frame s]
  exact hx _ _

theorem gbA_banded (mem : Buf × Nat → α) : Banded kl ku (gbA kl ku ldab mem) := by
  intro r c h
  unfold gbA
  rw [if_neg (by omega)]

/-- With zeros next to the band, the matrix that is converted is the user's matrix. -/
theorem gbU_eq (hnb : 0 < nb) {mem : Buf × Nat → α} (hz : GbPad nb kl ku ldab n mem) {r c : Nat} (hr : r < n) (hc : c < n)
    (hld : 0 < ldab) : gbU nb kl ku ldab mem r c = gbA kl ku ldab mem r c := by
  have dr := divmod r nb
  have dc := divmod c nb
  have hr' := Nat.mod_lt r hnb
  have hc' := Nat.mod_lt c hnb
  have hcl : c ≤ c * ldab := Nat.le_mul_of_pos_right _ hld
  have f4 : r / nb < c / nb → r / nb * nb + nb ≤ c / nb * nb := fun h => by
    have := Nat.mul_le_mul_right nb (show r / nb + 1 ≤ c / nb from h)
    rw [Nat.add_mul] at this; omega
  have f5 : c / nb < r / nb → c / nb * nb + nb ≤ r / nb * nb := fun h => by
    have := Nat.mul_le_mul_right nb (show c / nb + 1 ≤ r / nb from h)
    rw [Nat.add_mul] at this; omega
  have f3 : r / nb = c / nb → r / nb * nb = c / nb * nb := fun h => by rw [h]
  unfold gbU gbA
  by_cases hb : c ≤ r + ku ∧ r ≤ c + kl
  · rw [if_pos hb, if_pos]
    · congr 2; omega
    · simp only [bTile, inB]
      generalize r / nb * nb = X at *
      generalize c / nb * nb = Y at *
      omega
  · rw [if_neg hb]
    by_cases hB : bTile none nb kl ku (r / nb) (c / nb) ∧ inB none nb kl ku (r / nb) (c / nb) r c
    · rw [if_pos hB]
      simp only [bTile, inB] at hB
      refine hz r c hr hc ?_ ?_ (by omega)
      · generalize r / nb * nb = X at *
        generalize c / nb * nb = Y at *
        omega
      · generalize r / nb * nb = X at *
        generalize c / nb * nb = Y at *
        omega
    · rw [if_neg hB]

/-- The tiles when the factorization or the solve starts. -/
theorem gb_in (hp : (gvPar nb n kl ku ldab nrhs ldb).OK) {IB : List (TTask (Buf × Nat × Nat) α)}
    (hwI : Writes (fun t => t.1 = Buf.til 1) IB) (mem : Buf × Nat → α) {r c : Nat} (hr : r < n) (hc : c < n) :
    gbX nb kl ku (gvPar nb n kl ku ldab nrhs ldb).tA (texec (pzpb2desc none (gvPar nb n kl ku ldab nrhs ldb).uA
      (gvPar nb n kl ku ldab nrhs ldb).tA ++ IB) (view (eloc (gvPar nb n kl ku ldab nrhs ldb).env) mem)) r c =
      gbU nb kl ku ldab mem r c := by
  unfold gbX gbU
  by_cases ht : bTile none nb kl ku (r / nb) (c / nb)
  · rw [if_pos ht, texec_append, gwr_el hwI (by simp [BPar.tA, bandT])]
    refine (BPar.in_el hp mem hr hc ht).trans ?_
    exact if_congr ⟨fun h => ⟨ht, h⟩, fun h => h.2⟩ rfl rfl
  · rw [if_neg ht, if_neg fun h => ht h.1]

/-- The factors and pivots of `A0`, as `plasma_zgbtrf` leaves them in the user's arrays. -/
structure GbFac (E : IntCode α) (nb kl ku ldab n : Nat) (A0 : Nat → Nat → α) (mem : Buf × Nat → α) : Prop where
  rng : ∀ i, i < n → 1 ≤ E.dec (mem (.usr 2, i)) ∧ i ≤ gpv E mem i ∧ gpv E mem i < n
  inv : LUInv n n A0 (lazyM (gpv E mem) (lzi nb) n (gbU nb kl ku ldab mem)) (perm (gpv E mem) 0 n) n
  dia : ∀ c, c < n → gbU nb kl ku ldab mem c c ≠ 0

/-- The converted part of the array contains all of the factors. -/
theorem gbDone_trunc (hnb : 0 < nb) {A P : TMat Buf} {A0 : Nat → Nat → α} (hA0 : Banded kl ku A0 ∨ n ≤ nb)
    {s : Store (Buf × Nat × Nat) α} (h : GbDone E nb n kl ku A P A0 s) {r c : Nat} (hr : r < n) (hc : c < n)
    (ht : bTile none nb kl ku (r / nb) (c / nb)) (hB : ¬ inB none nb kl ku (r / nb) (c / nb) r c) :
    A.el s r c = 0 := by
  have e : gbX nb kl ku A s r c = A.el s r c := by unfold gbX; rw [if_pos ht]
  rw [← e]
  have dr := divmod r nb
  have dc := divmod c nb
  have hp : ∀ i, i < n → i ≤ pv E P s i := fun i hi => (h.rng i hi).2.1
  rcases hA0 with hA0 | hA0
  swap
  · rw [Nat.div_eq_of_lt (show r < nb by omega), Nat.div_eq_of_lt (show c < nb by omega)] at hB
    exact absurd (by simp [inB]) hB
  by_cases h1 : r / nb < c / nb ∧ r + (ku + kl) < c
  · have hz := lu_upper_band h.inv (fun c hc => by rw [lazyM_diag hp (lt_lzi hnb)]; exact h.dia c hc)
      (fun r c hh => hA0 r c (Or.inl hh)) (fun r c hh => hA0 r c (Or.inr hh)) hr hc (show r + kl + ku < c by omega)
    unfold lazyM at hz
    have hlt : c < lzi nb c := lt_lzi hnb
    rw [if_pos hc] at hz
    by_cases hle : lzi nb c ≤ n
    · rw [perm_fix (fun i h1 h2 => hp i (by omega)) (by omega)] at hz
      exact hz
    · rw [show n - lzi nb c = 0 by omega] at hz
      exact hz
  · refine h.low r c hc hr ?_
    simp only [inB] at hB
    generalize c / nb * nb = Y at *
    omega

/-- The common part of `plasma_zgbtrf` and `plasma_zgbsv`: a factorization followed by tasks `R` that cannot
fail. -/
theorem gb_core (hdv : IsDiv dv) (hmag : IsMag mag) (hp : (gvPar nb n kl ku ldab nrhs ldb).OK) (hib : 0 < ib)
    (hmpt : 0 < mpt) {rg : Bool}
    (hrg : rg = true → n ≤ nb * (1 + (ku + kl + nb - 1) / nb + (kl + nb - 1) / nb))
    {IB R OB : List (TTask (Buf × Nat × Nat) α)} {q : Nat} (hq : 2 ≤ q)
    (hgI : Good (evalid (gvPar nb n kl ku ldab nrhs ldb).env) IB) (hI0 : ∀ t ∈ IB, t.phase = 0)
    (hgR : GoodC (evalid (gvPar nb n kl ku ldab nrhs ldb).env) R) (hR : ∀ t ∈ R, 1 < t.phase ∧ t.phase < q)
    (hgO : Good (evalid (gvPar nb n kl ku ldab nrhs ldb).env) OB)
    (hwI : Writes (fun t => t.1 = Buf.til 1) IB) (hwR : Writes (fun t => t.1 = Buf.til 1) R)
    (hwO : Writes (fun t => t.1 = Buf.usr 1) OB) {mem mem' : Buf × Nat → α} {st : Int}
    {A0 : Nat → Nat → α} (hA0 : Banded kl ku A0 ∨ n ≤ nb)
    (hz : ∀ r c, r < n → c < n → gbU nb kl ku ldab mem r c = A0 r c)
    (hx : GExec (gvPar nb n kl ku ldab nrhs ldb).env
      (okT (pzpb2desc none (gvPar nb n kl ku ldab nrhs ldb).uA (gvPar nb n kl ku ldab nrhs ldb).tA ++ IB) ++
        (phG 1 (pzgbtrf rg E mag dv big ib mpt (gvPar nb n kl ku ldab nrhs ldb).tA (gvPar nb n kl ku ldab nrhs ldb).uP) ++
          okT R) ++
        okT ((pzdesc2pb none (gvPar nb n kl ku ldab nrhs ldb).tA (gvPar nb n kl ku ldab nrhs ldb).uA ++ OB).map (phT q)))
      mem mem' st) :
    (st = 0 →
      (Exec (gvPar nb n kl ku ldab nrhs ldb).env
        ((pzpb2desc none (gvPar nb n kl ku ldab nrhs ldb).uA (gvPar nb n kl ku ldab nrhs ldb).tA ++ IB) ++
        ((tasks (pzgbtrf rg E mag dv big ib mpt (gvPar nb n kl ku ldab nrhs ldb).tA
          (gvPar nb n kl ku ldab nrhs ldb).uP)).map (phT 1) ++ R) ++
        ((pzdesc2pb none (gvPar nb n kl ku ldab nrhs ldb).tA (gvPar nb n kl ku ldab nrhs ldb).uA ++ OB).map (phT q)))
          mem mem' ∧
       GoodC (evalid (gvPar nb n kl ku ldab nrhs ldb).env)
        ((pzpb2desc none (gvPar nb n kl ku ldab nrhs ldb).uA (gvPar nb n kl ku ldab nrhs ldb).tA ++ IB) ++
        ((tasks (pzgbtrf rg E mag dv big ib mpt (gvPar nb n kl ku ldab nrhs ldb).tA
          (gvPar nb n kl ku ldab nrhs ldb).uP)).map (phT 1) ++ R) ++
        ((pzdesc2pb none (gvPar nb n kl ku ldab nrhs ldb).tA (gvPar nb n kl ku ldab nrhs ldb).uA ++ OB).map (phT q)))) ∧
      GbDone E nb n kl ku (gvPar nb n kl ku ldab nrhs ldb).tA (gvPar nb n kl ku ldab nrhs ldb).uP A0
        (texec (tasks (pzgbtrf rg E mag dv big ib mpt (gvPar nb n kl ku ldab nrhs ldb).tA
          (gvPar nb n kl ku ldab nrhs ldb).uP)) (texec
          (pzpb2desc none (gvPar nb n kl ku ldab nrhs ldb).uA (gvPar nb n kl ku ldab nrhs ldb).tA ++ IB)
            (view (eloc (gvPar nb n kl ku ldab nrhs ldb).env) mem))) ∧
      GbFac E nb kl ku ldab n A0 mem') ∧
    (st ≠ 0 → ¬ ColsIndep n n A0) ∧
    (st ≠ 0 → 1 ≤ kl + ku → ∃ q : Nat, q < n ∧ st = ((q + 1 : Nat) : Int) ∧
      ColsIndep n q A0 ∧ ColDep n q A0) ∧
    (∀ k x, (k = 0 → ∀ r c, r < n → c < n → r ≤ c + (kl + nb) → c ≤ r + max (ku + kl) (nb - 1) →
        x ≠ (ku + kl) + r + c * ldab - c) → (k = 2 → n ≤ x) →
      ((∃ t, t ∈ OB) → k = 1 → ∀ r c, r < n → c < nrhs → x ≠ r + c * ldb) → mem' (.usr k, x) = mem (.usr k, x)) := by
  have hnb : 0 < nb := hp.pos
  have hfit := gb_fit (ib := ib) (mpt := mpt) hp hib hmpt
  have hsec := gb_sec (rg := rg) hp hrg
  set p := gvPar nb n kl ku ldab nrhs ldb with hpdef
  set I := pzpb2desc (α := α) none p.uA p.tA ++ IB with hI
  set O := (pzdesc2pb (α := α) none p.tA p.uA ++ OB).map (phT q) with hO
  set L := pzgbtrf rg E mag dv big ib mpt p.tA p.uP with hL
  have hA : p.tA.Al nb := BPar.al_tA hp
  have hgL : GoodC (evalid p.env) (tasks L) := pzgbtrf_good hfit (fun k _ hk => hsec k hk)
  have hL0 : ∀ t ∈ tasks L, t.phase = 0 := by
    intro t ht
    rw [hL, pzgbtrf_labs] at ht
    obtain ⟨l, -, rfl⟩ := List.mem_map.mp ht
    unfold gbLab
    split_ifs <;> rfl
  have hgin : Good (evalid p.env) (pzpb2desc (α := α) none p.uA p.tA) := BPar.in_good hp
  have hgout : Good (evalid p.env) (pzdesc2pb (α := α) none p.tA p.uA) := BPar.out_good hp
  have hin0 : ∀ t ∈ I, t.phase = 0 := by
    intro t ht
    rw [hI] at ht
    rcases List.mem_append.mp ht with ht | ht
    · unfold pzpb2desc at ht
      obtain ⟨_, -, ht⟩ := List.mem_flatMap.mp ht
      obtain ⟨_, -, rfl⟩ := List.mem_map.mp ht
      rfl
    · exact hI0 t ht
  have hLp : ∀ t ∈ (tasks L).map (phT 1), t.phase = 1 := by
    intro t ht
    obtain ⟨t', -, rfl⟩ := List.mem_map.mp ht
    rfl
  have hOp : ∀ t ∈ O, t.phase = q := by
    intro t ht
    obtain ⟨t', -, rfl⟩ := List.mem_map.mp ht
    rfl
  have hgL1 : GoodC (evalid p.env) ((tasks L).map (phT 1)) := goodC_phT hgL hL0
  have hgO' : GoodC (evalid p.env) O := (good_phT (hgout.append hgO)).toC
  have hgI' : GoodC (evalid p.env) I := (hgin.append hgI).toC
  have hg : GoodC (evalid p.env) (I ++ ((tasks L).map (phT 1) ++ R) ++ O) := by
    refine ⟨?_, ?_, ?_⟩
    · intro t ht
      simp only [List.mem_append] at ht
      rcases ht with (ht | ht | ht) | ht
      exacts [hgI'.loc t ht, hgL1.loc t ht, hgR.loc t ht, hgO'.loc t ht]
    · intro t ht
      simp only [List.mem_append] at ht
      rcases ht with (ht | ht | ht) | ht
      exacts [hgI'.ins t ht, hgL1.ins t ht, hgR.ins t ht, hgO'.ins t ht]
    · refine TCovered.phases (TCovered.phases hgI'.cov (TCovered.phases hgL1.cov hgR.cov ?_) ?_) hgO'.cov ?_
      · intro t ht t' ht'
        rw [hLp t ht]; exact (hR t' ht').1
      · intro t ht t' ht'
        rw [hin0 t ht]
        rcases List.mem_append.mp ht' with h | h
        · rw [hLp t' h]; exact Nat.one_pos
        · have := (hR t' h).1; omega
      · intro t ht t' ht'
        rw [hOp t' ht']
        simp only [List.mem_append] at ht
        rcases ht with ht | ht | ht
        · rw [hin0 t ht]; omega
        · rw [hLp t ht]; omega
        · exact (hR t ht).2
  have e1 : tasks (phG 1 L ++ okT R) = (tasks L).map (phT 1) ++ R := by
    rw [tasks_append, tasks_okT, tasks_phG]
  have hg' : GoodC (evalid p.env) (I ++ tasks (phG 1 L ++ okT R) ++ O) := by rw [e1]; exact hg
  have hco : CodeOK (phG 1 L ++ okT R) := (phG_codeOK (pzgbtrf_codeOK hfit.ok rg)).append (CodeOK.ok _)
  set s := texec I (view (eloc p.env) mem) with hs
  have hinX : ∀ r c, r < n → c < n → gbX nb kl ku p.tA s r c = A0 r c := by
    intro r c hr hc
    rw [← hz r c hr hc]
    exact gb_in hp hwI mem hr hc
  have hcode : ∀ i, tcode (phG 1 L ++ okT R) s i = tcode L s i := by
    intro i
    by_cases hi : i < (phG 1 L).length
    · rw [tcode_append_left _ _ _ hi, tcode_phG]
    · obtain ⟨j, rfl⟩ := Nat.exists_eq_add_of_le (Nat.le_of_not_lt hi)
      rw [tcode_append_right, tcode_ok, tcode_len]
      have : (phG 1 L).length = L.length := by simp [phG]
      omega
  have hbad : ∀ i, tcode L s i ≠ 0 → (∀ j < i, tcode L s j = 0) → ∃ q : Nat, q < n ∧
      tcode L s i = ((q + 1 : Nat) : Int) ∧ ColsIndep n q A0 ∧ ColDep n q A0 := by
    intro i hi hf
    obtain ⟨q, h1, h2, h3⟩ := pzgbtrf_fail hdv hmag hfit.ok rg hA0 s hinX hi hf
    exact ⟨q, h1, h2, h3.cols⟩
  refine ⟨?_, ?_, ?_, ?_⟩
  · rintro rfl
    obtain ⟨hx', hc⟩ := sand_success hp.wf hg' hco hx
    rw [e1] at hx'
    have hd := pzgbtrf_ok hdv hmag hfit.ok rg hA0 s hinX (fun i => by rw [← hcode]; exact hc i)
    rw [← hL] at hd
    set F := texec (tasks L) s with hF
    refine ⟨⟨hx', hg⟩, hd, ?_⟩
    have hwout : Writes (fun t => t.1 = Buf.usr 0) (pzdesc2pb (α := α) none p.tA p.uA) := by
      intro t ht x i j hx
      obtain ⟨m, l, e, -⟩ := pzdesc2pb_wr (N := n) hA rfl rfl t ht x i j hx
      rw [e]; rfl
    have hwO2 : Writes (fun t => t.1 = Buf.usr 0 ∨ t.1 = Buf.usr 1) O := by
      refine writes_phT (Writes.append (hwout.mono fun _ h => Or.inl h) (hwO.mono fun _ h => Or.inr h))
    have hP : ∀ i, i < n → mem' (.usr 2, i) = p.uP.el F i 0 := by
      intro i hi
      have h1 := Exec.elC hp.wf hg hx' (gb_fits_uP hnb) (r := i) (c := 0) hi (by show 0 < 1; decide)
      have h2 : p.uP.el (view (eloc p.env) mem') i 0 = mem' (.usr 2, i) := by
        refine (el_view_lapack (env := p.env) (id := .usr 2) (l := n) hnb rfl mem' i 0).trans ?_
        rw [Nat.zero_mul, Nat.add_zero]
      rw [← h2]
      refine h1.trans ?_
      rw [texec_append, gwr_el hwO2 (by simp [BPar.uP, TMat.full]), texec_append, texec_append,
        gwr_el hwR (by simp [BPar.uP, TMat.full]), texec_phT]
    have hpv : ∀ i, i < n → gpv E mem' i = pv E p.uP F i := fun i hi => by unfold gpv pv; rw [hP i hi]
    have hU : ∀ r c, r < n → c < n → gbU nb kl ku ldab mem' r c = gbX nb kl ku p.tA F r c := by
      intro r c hr hc
      unfold gbU gbX
      by_cases ht : bTile none nb kl ku (r / nb) (c / nb)
      · rw [if_pos ht]
        by_cases hB : inB none nb kl ku (r / nb) (c / nb) r c
        · rw [if_pos ⟨ht, hB⟩]
          have h1 := BPar.exec_uA hp hg hx' hr hc ht hB
          refine h1.trans ?_
          rw [texec_append, hO, texec_phT, texec_append, gwr_el hwO (by simp [BPar.uA, TMat.full]), texec_append,
            texec_append]
          refine (pzdesc2pb_el (N := n) hA (BPar.al_uA hp) rfl rfl
            (by simp [BPar.uA, BPar.tA, TMat.full, bandT]) _ hr hc ht).trans ?_
          refine (if_pos hB).trans ?_
          rw [gwr_el hwR (by simp [BPar.tA, bandT]), texec_phT]
        · rw [if_neg fun h => hB h.2]
          exact (gbDone_trunc hnb hA0 hd hr hc ht hB).symm
      · rw [if_neg ht, if_neg fun h => ht h.1]
    have hperm : perm (gpv E mem') 0 n = perm (pv E p.uP F) 0 n := perm_congr fun i _ hi => hpv i (by omega)
    refine ⟨fun i hi => ?_, ?_, fun c hc => ?_⟩
    · rw [hpv i hi, hP i hi]; exact hd.rng i hi
    · rw [hperm, lazyM_congr hpv]
      refine hd.inv.congr le_rfl fun r c hr hc => ?_
      unfold lazyM
      rw [if_pos hc, if_pos hc]
      refine (hU _ _ ?_ hc).symm
      by_cases hle : lzi nb c ≤ n
      · by_cases hlr : lzi nb c ≤ r
        · exact (perm_range (fun i _ h2 => (hd.rng i (by omega)).2) hlr hr).2
        · rw [perm_fix (fun i _ h2 => (hd.rng i (by omega)).2.1) (by omega)]; exact hr
      · rw [show n - lzi nb c = 0 by omega]; exact hr
    · rw [hU c c hc hc]; exact hd.dia c hc
  · intro h0
    obtain ⟨i, hi⟩ := sand_failure_some hp.wf hg' hco hx h0
    rw [hcode] at hi
    have hex : ∃ i, tcode L s i ≠ 0 := ⟨i, by rw [hi]; exact h0⟩
    classical
    obtain ⟨q, hqn, -, -, hd⟩ := hbad (Nat.find hex) (Nat.find_spec hex) (fun j hj => not_not.mp (Nat.find_min hex hj))
    exact hd.not_indep hqn
  · intro h0 hk
    have hkut : 2 ≤ p.tA.d.kut := by
      rw [hfit.ok.kut]
      have : 1 ≤ (ku + kl + nb - 1) / nb := by rw [Nat.le_div_iff_mul_le hnb]; omega
      omega
    have hch : FChain (phG 1 L ++ okT R) :=
      (phG_chain (pzgbtrf_chain hfit.ok hsec hkut) hL0).append (safe_ok _)
    obtain ⟨i, hi, hf⟩ := sand_failure hp.wf hg' hco hch hx h0
    rw [hcode] at hi
    obtain ⟨q, h1, h2, h3⟩ := hbad i (by rw [hi]; exact h0) (fun j hj => by rw [← hcode]; exact hf j hj)
    exact ⟨q, h1, by rw [← hi]; exact h2, h3⟩
  · intro k x h0 h2 h1
    have e2 : tasks (okT I ++ (phG 1 L ++ okT R) ++ okT O) = I ++ ((tasks L).map (phT 1) ++ R) ++ O := by
      rw [tasks_append, tasks_append, tasks_okT, tasks_okT, e1]
    apply hx.frame
    rw [e2]
    rintro t ht ⟨a, m, l⟩ i j hwr hel
    have ha : a = .usr k := congrArg Prod.fst hel
    subst ha
    have hel : (p.env (.usr k)).off m l i j = x := congrArg Prod.snd hel
    have hv := (hg.ins t ht _ _ _ (Or.inr hwr))
    have hk : k = 0 ∨ k = 1 ∧ (∃ t, t ∈ OB) ∨ k = 2 := by
      have hwi : Writes (fun t => t.1 = Buf.til 0) (pzpb2desc (α := α) none p.uA p.tA) := by
        intro t ht x i j hx
        obtain ⟨m, l, e, -⟩ := pzpb2desc_wr (N := n) hA rfl rfl t ht x i j hx
        rw [e]; rfl
      simp only [List.mem_append, hI, hO, List.map_append] at ht
      rcases ht with ((ht | ht) | ht | ht) | ht | ht
      · cases hwi t ht _ _ _ hwr
      · cases hwI t ht _ _ _ hwr
      · rcases writes_phT (pzgbtrf_writes hfit.ok rg) t ht _ _ _ hwr with h | h
        · cases h
        · cases h; exact Or.inr (Or.inr rfl)
      · cases hwR t ht _ _ _ hwr
      · obtain ⟨t', ht', rfl⟩ := List.mem_map.mp ht
        obtain ⟨m', l', e, -⟩ := pzdesc2pb_wr (N := n) hA rfl rfl t' ht' _ _ _ hwr
        cases congrArg Prod.fst e
        exact Or.inl rfl
      · obtain ⟨t', ht', rfl⟩ := List.mem_map.mp ht
        cases hwO t' ht' _ _ _ hwr
        exact Or.inr (Or.inl ⟨rfl, t', ht'⟩)
    obtain ⟨hv1, hv2⟩ := hv
    rcases hk with rfl | ⟨rfl, hOB⟩ | rfl
    · change TileOK nb nb n n m l i j at hv1
      rw [tileOK_iff] at hv1
      change l * nb + j ≤ uKt none nb kl ku + (m * nb + i) ∧ m * nb + i ≤ uKl none nb kl + (l * nb + j) at hv2
      simp only [uKt, uKl] at hv2
      exact h0 rfl (m * nb + i) (l * nb + j) hv1.2.1 hv1.2.2.2 (by omega) (by omega) hel.symm
    · change TileOK nb nb n nrhs m l i j at hv1
      rw [tileOK_iff] at hv1
      refine h1 hOB rfl (m * nb + i) (l * nb + j) hv1.2.1 hv1.2.2.2 ?_
      rw [← hel, MatEnv.off_lapack (l := ldb) rfl]
      show m * nb + i + ldb * (l * nb + j) = _
      ring
    · change TileOK nb nb n 1 m l i j at hv1
      rw [tileOK_iff] at hv1
      have h3 := h2 rfl
      rw [MatEnv.off_lapack (l := n) rfl] at hel
      have h4 : m * nb + i + n * (l * nb + j) = x := hel
      rw [show l * nb + j = 0 by omega, Nat.mul_zero] at h4
      omega

/-- The stored factors in user terms. -/
theorem GbFac.lu (hnb : 0 < nb) (hld : 0 < ldab) {A0 : Nat → Nat → α} (hA0 : Banded kl ku A0) {mem : Buf × Nat → α}
    (h : GbFac E nb kl ku ldab n A0 mem) :
    (∃ L : Nat → Nat → α, (∀ r l, r < n → l < n → (r < l → L r l = 0) ∧ (r = l → L r l = 1)) ∧
      ∀ r c, r < n → c < n → interch (List.range n) (gpv E mem) A0 r c =
        ∑ l ∈ range n, L r l * gbUp kl ku ldab mem l c) ∧
    (∀ i, i < n → mem (.usr 0, (kl + ku) + i * ldab) ≠ 0) := by
  have hp : ∀ i, i < n → i ≤ gpv E mem i := fun i hi => (h.rng i hi).2.1
  set F := lazyM (gpv E mem) (lzi nb) n (gbU nb kl ku ldab mem) with hF
  have hup : ∀ l c, l ≤ c → c < n → F l c = gbU nb kl ku ldab mem l c := by
    intro l c hlc hc
    have hlt : c < lzi nb c := lt_lzi hnb
    rw [hF]
    unfold lazyM
    rw [if_pos hc]
    by_cases hle : lzi nb c ≤ n
    · rw [perm_fix (fun i h1 h2 => hp i (by omega)) (by omega)]
    · rw [show n - lzi nb c = 0 by omega]; rfl
  have hval : ∀ l c, l ≤ c → c ≤ l + (kl + ku) → gbU nb kl ku ldab mem l c = mem (.usr 0, (kl + ku + l - c) + c * ldab) := by
    intro r c hrc hcr
    have dr := divmod r nb
    have dc := divmod c nb
    have hr' := Nat.mod_lt r hnb
    have hc' := Nat.mod_lt c hnb
    have hcl : c ≤ c * ldab := Nat.le_mul_of_pos_right _ hld
    have hdv := Nat.div_le_div_right (c := nb) hrc
    have f1 : r / nb * nb ≤ c / nb * nb := Nat.mul_le_mul_right _ hdv
    unfold gbU
    rw [if_pos]
    · congr 2; omega
    · simp only [bTile, inB]
      generalize r / nb * nb = X at *
      generalize c / nb * nb = Y at *
      omega
  have hdd : ∀ c, c < n → F c c ≠ 0 := fun c hc => by rw [hup c c le_rfl hc]; exact h.dia c hc
  have hU : ∀ l c, l < n → c < n → luU F l c = gbUp kl ku ldab mem l c := by
    intro l c hl hc
    unfold luU gbUp
    by_cases hlc : l ≤ c
    · rw [if_pos hlc]
      by_cases hk : c ≤ l + (kl + ku)
      · rw [if_pos ⟨hlc, hk⟩, hup l c hlc hc, hval l c hlc hk]
      · rw [if_neg fun hh => hk hh.2]
        exact lu_upper_band h.inv hdd (fun r c hh => hA0 r c (Or.inl hh)) (fun r c hh => hA0 r c (Or.inr hh)) hl hc
          (by omega)
    · rw [if_neg hlc, if_neg fun hh => hlc hh.1]
  refine ⟨⟨luL F, fun r l _ _ => ⟨fun h => ?_, fun h => ?_⟩, fun r c hr hc => ?_⟩, fun i hi => ?_⟩
  · unfold luL; rw [if_neg (by omega), if_neg (by omega)]
  · unfold luL; rw [if_neg (by omega), if_pos h.symm]
  · rw [perm_interch, h.inv.done (by omega) hr hc, luE_prod F hr hc, Nat.min_self]
    refine sum_congr rfl fun l hl => ?_
    rw [mem_range] at hl
    rw [hU l c hl hc]
  · have := h.dia i hi
    rw [hval i i le_rfl (by omega), show kl + ku + i - i = kl + ku by omega] at this
    exact this

/-- A matrix with these factors is nonsingular. -/
theorem GbFac.indep (hnb : 0 < nb) {A0 : Nat → Nat → α} {mem : Buf × Nat → α}
    (h : GbFac E nb kl ku ldab n A0 mem) : ColsIndep n n A0 := by
  have hp : ∀ i, i < n → i ≤ gpv E mem i := fun i hi => (h.rng i hi).2.1
  refine indep_of_lu (X := lazyM (gpv E mem) (lzi nb) n (gbU nb kl ku ldab mem)) (π := perm (gpv E mem) 0 n)
      (fun r hr => perm_lt (le_refl _) (fun i hi => (h.rng i hi).2.2) hr) (le_refl _) (fun r c hr hc => ?_)
      (fun c hc => by rw [lazyM_diag hp (lt_lzi hnb)]; exact h.dia c hc)
  rw [h.inv.done (by omega) hr hc, luE_prod _ hr hc, Nat.min_self]

/-- The right-hand sides when the solve starts. -/
theorem gb_inB (hp : (gvPar nb n kl ku ldab nrhs ldb).OK) (mem : Buf × Nat → α) {r c : Nat} (hr : r < n)
    (hc : c < nrhs) :
    (gvPar nb n kl ku ldab nrhs ldb).tB.el (texec (pzpb2desc none (gvPar nb n kl ku ldab nrhs ldb).uA
      (gvPar nb n kl ku ldab nrhs ldb).tA ++
      pzge2desc (gvPar nb n kl ku ldab nrhs ldb).uB (gvPar nb n kl ku ldab nrhs ldb).tB)
      (view (eloc (gvPar nb n kl ku ldab nrhs ldb).env) mem)) r c = mem (.usr 1, r + c * ldb) := by
  set p := gvPar nb n kl ku ldab nrhs ldb with hpdef
  have hw : Writes (fun t => t.1 = Buf.til 0) (pzpb2desc (α := α) none p.uA p.tA) := by
    intro t ht x i j hx
    obtain ⟨m, l, e, -⟩ := pzpb2desc_wr (N := n) (BPar.al_tA hp) rfl rfl t ht x i j hx
    rw [e]; rfl
  rw [texec_append]
  refine (copyTasks_el (A := p.tB) (U := p.uB) (V := p.tB) (BPar.al_tB hp) (BPar.al_uB hp) (BPar.al_tB hp)
    (by simp [BPar.uB, BPar.tB, TMat.full]) _ hr hc).trans ?_
  rw [gwr_el hw (by simp [BPar.uB, TMat.full])]
  exact BPar.uB_el hp mem r c

/-- Phases of the conversions. -/
theorem copy_phase {A U V : TMat Buf} : ∀ t ∈ copyTasks (α := α) A U V, t.phase = 0 := by
  intro t ht
  unfold copyTasks at ht
  obtain ⟨_, -, ht⟩ := List.mem_flatMap.mp ht
  obtain ⟨_, -, rfl⟩ := List.mem_map.mp ht
  rfl

theorem in_phase {U A : TMat Buf} {v : Stor} : ∀ t ∈ pzpb2desc (α := α) v U A, t.phase = 0 := by
  intro t ht
  unfold pzpb2desc at ht
  obtain ⟨_, -, ht⟩ := List.mem_flatMap.mp ht
  obtain ⟨_, -, rfl⟩ := List.mem_map.mp ht
  rfl

/-- `plasma_zgbtrs` is free of races. -/
theorem zgbtrs_good (hp : (gvPar nb n kl ku ldab nrhs ldb).OK) (t : Trans) :
    GoodC (evalid (gvPar nb n kl ku ldab nrhs ldb).env) (zgbtrs E dv nb t n kl ku nrhs ldab ldb) := by
  have htb := gb_tb (ib := 1) (mpt := 1) hp Nat.one_pos Nat.one_pos
  unfold zgbtrs
  simp only
  split
  · exact Good.nil.toC
  set p := gvPar nb n kl ku ldab nrhs ldb with hpdef
  have hgin : Good (evalid p.env) (pzpb2desc (α := α) none p.uA p.tA) := BPar.in_good hp
  have hgI := hgin.append (BPar.geIn_good (α := α) hp)
  have hgO : Good (evalid p.env) ((pzdesc2ge (α := α) p.tB p.uB).map (phT (2 * (p.tB.d.mt * p.tB.d.nt)))) :=
    good_phT (BPar.geOut_good hp)
  have hS : (∀ x ∈ ompZgbtrs E dv t p.tA p.uP p.tB, x.Local ∧ x.Inside (evalid p.env)) ∧
      PhSeq 0 (0 + 2 * (p.tB.d.mt * p.tB.d.nt)) (ompZgbtrs E dv t p.tA p.uP p.tB) := by
    unfold ompZgbtrs
    split
    · exact ⟨fun x hx => by simp at hx, PhSeq.nil (by omega)⟩
    · exact ⟨gbSolve_loc htb (BPar.fits_tA hp) (BPar.fits_tB hp) (gb_fits_uP hp.pos),
        gbSolve_phases htb (BPar.fits_tA hp) (BPar.fits_tB hp) 0⟩
  refine ⟨?_, ?_, ?_⟩
  · intro x hx
    rcases List.mem_append.mp hx with hx | hx
    · rcases List.mem_append.mp hx with hx | hx
      · exact hgI.loc x hx
      · exact (hS.1 x hx).1
    · exact hgO.loc x hx
  · intro x hx
    rcases List.mem_append.mp hx with hx | hx
    · rcases List.mem_append.mp hx with hx | hx
      · exact hgI.ins x hx
      · exact (hS.1 x hx).2
    · exact hgO.ins x hx
  · refine PhSeq.cov (((PhSeq.const fun x hx => ⟨hgI.decl x hx, ?_⟩).append hS.2).append (hi := 0 + 2 * (p.tB.d.mt * p.tB.d.nt))
      (PhSeq.const fun x hx => ⟨hgO.decl x hx, ?_⟩))
    · rcases List.mem_append.mp hx with hx | hx
      · exact in_phase x hx
      · exact copy_phase x hx
    · obtain ⟨y, -, rfl⟩ := List.mem_map.mp hx
      exact (Nat.zero_add _).symm

/-- The solve with the factors in the user's arrays. -/
theorem gbtrs_core (hdv : IsDiv dv) (hp : (gvPar nb n kl ku ldab nrhs ldb).OK) (t : Trans) {A0 : Nat → Nat → α}
    {mem mem' : Buf × Nat → α} (hf : GbFac E nb kl ku ldab n A0 mem)
    (hx : Exec (gvPar nb n kl ku ldab nrhs ldb).env (zgbtrs E dv nb t n kl ku nrhs ldab ldb) mem mem') :
    (∀ i j, i < n → j < nrhs → ∑ l ∈ range n, opE t A0 i l * mem' (.usr 1, l + j * ldb) = mem (.usr 1, i + j * ldb)) := by
  have hg := zgbtrs_good (E := E) (dv := dv) hp t
  have htb := gb_tb (ib := 1) (mpt := 1) hp Nat.one_pos Nat.one_pos
  have hnb : 0 < nb := hp.pos
  intro i j hi hj
  unfold zgbtrs at hx hg
  simp only at hx hg
  rw [if_neg (show ¬ max n nrhs = 0 by omega)] at hx hg
  set p := gvPar nb n kl ku ldab nrhs ldb with hpdef
  have homp : ompZgbtrs E dv t p.tA p.uP p.tB = gbSolve 0 E dv t p.tA p.uP p.tB := by
    unfold ompZgbtrs; rw [if_neg]
    show ¬ (n = 0 ∨ nrhs = 0); omega
  rw [homp] at hx hg
  set s := texec (pzpb2desc none p.uA p.tA ++ pzge2desc p.uB p.tB) (view (eloc p.env) mem) with hs
  have hwI : Writes (fun t => t.1 = Buf.til 1) (pzge2desc (α := α) p.uB p.tB) := copyTasks_writes (A := p.tB)
  have hw : Writes (fun t => t.1 = Buf.til 0) (pzpb2desc (α := α) none p.uA p.tA) := by
    intro t ht x i j hx
    obtain ⟨m, l, e, -⟩ := pzpb2desc_wr (N := n) (BPar.al_tA hp) rfl rfl t ht x i j hx
    rw [e]; rfl
  have hP : ∀ i, i < n → p.uP.el s i 0 = mem (.usr 2, i) := by
    intro i hi
    rw [hs, texec_append, gwr_el hwI (by simp [BPar.uP, TMat.full]), gwr_el hw (by simp [BPar.uP, TMat.full])]
    refine (el_view_lapack (env := p.env) (id := .usr 2) (l := n) hnb rfl mem i 0).trans ?_
    rw [Nat.zero_mul, Nat.add_zero]
  have hpv : ∀ i, i < n → pv E p.uP s i = gpv E mem i := fun i hi => by unfold gpv pv; rw [hP i hi]
  have hX : ∀ r c, r < n → c < n → gbX nb kl ku p.tA s r c = gbU nb kl ku ldab mem r c := fun r c hr hc =>
    gb_in hp hwI mem hr hc
  have hrng : PvOK E p.uP n n s := fun i hi => by rw [hpv i hi, hP i hi]; exact hf.rng i hi
  have key := gbSolve_el (X0 := A0) hdv htb 0 t s hrng (by
    rw [perm_congr (q := gpv E mem) fun i _ hi => hpv i (by omega), lazyM_congr hpv]
    refine hf.inv.congr le_rfl fun r c hr hc => ?_
    unfold lazyM
    rw [if_pos hc, if_pos hc]
    refine (hX _ _ ?_ hc).symm
    by_cases hle : lzi nb c ≤ n
    · by_cases hlr : lzi nb c ≤ r
      · exact (perm_range (fun i _ h2 => (hf.rng i (by omega)).2) hlr hr).2
      · rw [perm_fix (fun i _ h2 => (hf.rng i (by omega)).2.1) (by omega)]; exact hr
    · rw [show n - lzi nb c = 0 by omega]; exact hr)
    (fun c hc => by rw [hX c c hc hc]; exact hf.dia c hc) hi hj
  rw [hs, gb_inB hp mem hi hj, ← hs] at key
  rw [← key]
  refine sum_congr rfl fun l hl => ?_
  rw [mem_range] at hl
  congr 1
  refine (BPar.exec_uB hp hg hx hl hj).trans ?_
  rw [texec_append, texec_phT]
  refine (copyTasks_el (A := p.tB) (U := p.tB) (V := p.uB) (BPar.al_tB hp) (BPar.al_tB hp) (BPar.al_uB hp)
    (by simp [BPar.uB, BPar.tB, TMat.full]) _ hl hj).trans ?_
  rw [texec_append]

/-- The solve changes nothing but `B`. -/
theorem gbtrs_frame (hp : (gvPar nb n kl ku ldab nrhs ldb).OK) (t : Trans) {mem mem' : Buf × Nat → α}
    (hx : Exec (gvPar nb n kl ku ldab nrhs ldb).env (zgbtrs E dv nb t n kl ku nrhs ldab ldb) mem mem') :
    ∀ k x, (k = 1 → ∀ i j, i < n → j < nrhs → x ≠ i + j * ldb) → mem' (.usr k, x) = mem (.usr k, x) := by
  have hg := zgbtrs_good (E := E) (dv := dv) hp t
  intro k x hk
  apply (Exec.correct hp.wf hg.loc hg.ins hg.cov hx).2
  rintro u ht ⟨a, m, l⟩ i j hwr hel
  have ha : a = .usr k := congrArg Prod.fst hel
  subst ha
  have hel : ((gvPar nb n kl ku ldab nrhs ldb).env (.usr k)).off m l i j = x := congrArg Prod.snd hel
  have hv := (hg.ins u ht _ _ _ (Or.inr hwr)).1
  have hk1 : k = 1 := by
    unfold zgbtrs at ht
    simp only at ht
    split at ht
    · simp at ht
    simp only [List.mem_append] at ht
    rcases ht with ((ht | ht) | ht) | ht
    · obtain ⟨m, l, e, -⟩ := pzpb2desc_wr (N := n) (BPar.al_tA hp) rfl rfl u ht _ i j hwr
      cases congrArg Prod.fst e
    · cases copyTasks_writes (A := (gvPar nb n kl ku ldab nrhs ldb).tB) u ht _ _ _ hwr
    · unfold ompZgbtrs at ht
      split at ht
      · simp at ht
      · cases gbSolve_writes u ht _ _ _ hwr
    · obtain ⟨u', hu, rfl⟩ := List.mem_map.mp ht
      cases copyTasks_writes (A := (gvPar nb n kl ku ldab nrhs ldb).tB) u' hu _ _ _ hwr
      rfl
  subst hk1
  change TileOK nb nb n nrhs m l i j at hv
  rw [tileOK_iff] at hv
  refine hk rfl (m * nb + i) (l * nb + j) hv.2.1 hv.2.2.2 ?_
  rw [← hel, MatEnv.off_lapack (l := ldb) rfl]
  show m * nb + i + ldb * (l * nb + j) = _
  ring

end

/-! ### The properties -/

section
variable {nb n kl ku ldab nrhs ldb ib mpt : Nat} {E : IntCode α} {mag : α → γ} {dv : α → α → α} {big : α → Bool}

theorem gbU_pad (hnb : 0 < nb) (hl : (kl + nb) + max (ku + kl) (nb - 1) + 1 ≤ ldab) {mem : Buf × Nat → α}
    (hz : GbPad nb kl ku ldab n mem) :
    ∀ r c, r < n → c < n → gbU nb kl ku ldab mem r c = gbA kl ku ldab mem r c :=
  fun _ _ hr hc => gbU_eq hnb hz hr hc (by omega)

/-- The factorization, with the form of the factors that the solve uses. -/
theorem gbtrf_fac (hdv : IsDiv dv) (hmag : IsMag mag) (hnb : 0 < nb) (hib : 0 < ib) (hmpt : 0 < mpt) {rg : Bool}
    (hrg : rg = true → n ≤ nb * (1 + (ku + kl + nb - 1) / nb + (kl + nb - 1) / nb))
    (hl : (kl + nb) + max (ku + kl) (nb - 1) + 1 ≤ ldab) {mem mem' : Buf × Nat → α} {st : Int}
    (hz : GbPad nb kl ku ldab n mem)
    (hx : GExec (gvPar nb n kl ku ldab 0 n).env (zgbtrf rg E mag dv big nb ib mpt n kl ku ldab) mem mem' st) :
    (st = 0 → GbFac E nb kl ku ldab n (gbA kl ku ldab mem) mem') ∧
    (st ≠ 0 → ¬ ColsIndep n n (gbA kl ku ldab mem)) ∧
    (st ≠ 0 → 1 ≤ kl + ku → ∃ q : Nat, q < n ∧ st = ((q + 1 : Nat) : Int) ∧
      ColsIndep n q (gbA kl ku ldab mem) ∧ ColDep n q (gbA kl ku ldab mem)) ∧
    (∀ k x, (k = 0 → ∀ r c, r < n → c < n → r ≤ c + (kl + nb) → c ≤ r + max (ku + kl) (nb - 1) →
        x ≠ (ku + kl) + r + c * ldab - c) → (k = 2 → n ≤ x) → mem' (.usr k, x) = mem (.usr k, x)) := by
  have hp : (gvPar nb n kl ku ldab 0 n).OK := gb_ok hnb hl le_rfl
  unfold zgbtrf at hx
  simp only at hx
  have hx' : GExec (gvPar nb n kl ku ldab 0 n).env
      (okT (pzpb2desc none (gvPar nb n kl ku ldab 0 n).uA (gvPar nb n kl ku ldab 0 n).tA ++ []) ++
        (phG 1 (pzgbtrf rg E mag dv big ib mpt (gvPar nb n kl ku ldab 0 n).tA (gvPar nb n kl ku ldab 0 n).uP) ++ okT []) ++
        okT ((pzdesc2pb none (gvPar nb n kl ku ldab 0 n).tA (gvPar nb n kl ku ldab 0 n).uA ++ []).map (phT 2)))
      mem mem' st := by
    rw [List.append_nil, List.append_nil]
    convert hx using 3
    exact List.append_nil _
  obtain ⟨m1, m2, m3, m4⟩ := gb_core hdv hmag hp hib hmpt hrg (le_refl 2) Good.nil (by simp) Good.nil.toC (by simp) Good.nil
    Writes.nil Writes.nil Writes.nil (Or.inl (gbA_banded mem)) (gbU_pad hnb hl hz) hx'
  exact ⟨fun h => (m1 h).2.2, m2, m3, fun k x h0 h2 => m4 k x h0 h2 (fun ⟨t, ht⟩ => absurd ht List.not_mem_nil)⟩

/-- **C65.** Every execution of `plasma_zgbtrf` on a square band matrix with zeros next to the band in the array
returns 0 exactly when the matrix is nonsingular.  Then the pivots are in range and `P*A = L*U`, where `P`
applies the interchanges `i ↔ ipiv[i]-1` in order, `L` is unit lower triangular and `U` is the upper
triangular band matrix with `kl + ku` superdiagonals stored in the array, with nonzero diagonal.
Otherwise, for `kl + ku ≥ 1`, the value is the number of the first column that depends on the columns before.
Only the band with its fill-in, the diagonal tiles, and `ipiv` are written.
The full claim has no hypotheses `hz`, on the size of `ldab` beyond `1 + kl + ku`, and on `kl + ku ≥ 1`; see
`C64_padding_refuted`, `C64_ldab_alias` and `C65_diagonal_refuted`. -/
theorem C65_gbtrf_partial (hdv : IsDiv dv) (hmag : IsMag mag) (hnb : 0 < nb) (hib : 0 < ib) (hmpt : 0 < mpt) {rg : Bool}
    (hrg : rg = true → n ≤ nb * (1 + (ku + kl + nb - 1) / nb + (kl + nb - 1) / nb))
    (hl : (kl + nb) + max (ku + kl) (nb - 1) + 1 ≤ ldab) (mem mem' : Buf × Nat → α) (st : Int)
    (hz : GbPad nb kl ku ldab n mem)
    (hx : GExec (gvPar nb n kl ku ldab 0 n).env (zgbtrf rg E mag dv big nb ib mpt n kl ku ldab) mem mem' st) :
    (st = 0 ↔ ColsIndep n n (gbA kl ku ldab mem)) ∧
    (st = 0 →
      (∀ i, i < n → 1 ≤ E.dec (mem' (.usr 2, i)) ∧ i ≤ gpv E mem' i ∧ gpv E mem' i < n) ∧
      (∃ L : Nat → Nat → α, (∀ r l, r < n → l < n → (r < l → L r l = 0) ∧ (r = l → L r l = 1)) ∧
        ∀ r c, r < n → c < n → interch (List.range n) (gpv E mem') (gbA kl ku ldab mem) r c =
          ∑ l ∈ range n, L r l * gbUp kl ku ldab mem' l c) ∧
      (∀ i, i < n → mem' (.usr 0, (kl + ku) + i * ldab) ≠ 0)) ∧
    (st ≠ 0 → 1 ≤ kl + ku → ∃ q : Nat, q < n ∧ st = ((q + 1 : Nat) : Int) ∧
      ColsIndep n q (gbA kl ku ldab mem) ∧ ColDep n q (gbA kl ku ldab mem)) ∧
    (∀ k x, (k = 0 → ∀ r c, r < n → c < n → r ≤ c + (kl + nb) → c ≤ r + max (ku + kl) (nb - 1) →
        x ≠ (ku + kl) + r + c * ldab - c) → (k = 2 → n ≤ x) → mem' (.usr k, x) = mem (.usr k, x)) := by
  obtain ⟨m1, m2, m3, m4⟩ := gbtrf_fac hdv hmag hnb hib hmpt hrg hl hz hx
  refine ⟨⟨fun h => (m1 h).indep hnb, fun h => ?_⟩, fun h => ⟨(m1 h).rng, (m1 h).lu hnb (by omega) (gbA_banded mem)⟩, m3, m4⟩
  by_contra h0
  exact m2 h0 h

/-- **C66.** If `plasma_zgbtrf` returned 0 for a square band matrix `A` and the band array and the pivots are passed
unchanged to `plasma_zgbtrs`, then in all executions of both the result satisfies `op(A)*X = B` for the matrix `A`
before its factorization, for each `trans`; and `plasma_zgbtrs` changes nothing but `B`. -/
theorem C66_gbtrs_partial (hdv : IsDiv dv) (hmag : IsMag mag) (hnb : 0 < nb) (hib : 0 < ib) (hmpt : 0 < mpt) {rg : Bool}
    (hrg : rg = true → n ≤ nb * (1 + (ku + kl + nb - 1) / nb + (kl + nb - 1) / nb))
    (hl : (kl + nb) + max (ku + kl) (nb - 1) + 1 ≤ ldab) (hl' : n ≤ ldb) (t : Trans)
    (mem mem1 mem2 mem3 : Buf × Nat → α) (hz : GbPad nb kl ku ldab n mem)
    (hx : GExec (gvPar nb n kl ku ldab 0 n).env (zgbtrf rg E mag dv big nb ib mpt n kl ku ldab) mem mem1 0)
    (hk : ∀ k x, k = 0 ∨ k = 2 → mem2 (.usr k, x) = mem1 (.usr k, x))
    (hy : Exec (gvPar nb n kl ku ldab nrhs ldb).env (zgbtrs E dv nb t n kl ku nrhs ldab ldb) mem2 mem3) :
    (∀ i j, i < n → j < nrhs →
      ∑ l ∈ range n, opE t (gbA kl ku ldab mem) i l * mem3 (.usr 1, l + j * ldb) = mem2 (.usr 1, i + j * ldb)) ∧
    (∀ k x, (k = 1 → ∀ i j, i < n → j < nrhs → x ≠ i + j * ldb) → mem3 (.usr k, x) = mem2 (.usr k, x)) := by
  have hp : (gvPar nb n kl ku ldab nrhs ldb).OK := gb_ok hnb hl hl'
  have hf := (gbtrf_fac hdv hmag hnb hib hmpt hrg hl hz hx).1 rfl
  have e1 : gpv E mem2 = gpv E mem1 := by funext i; unfold gpv; rw [hk 2 i (Or.inr rfl)]
  have e2 : gbU nb kl ku ldab mem2 = gbU nb kl ku ldab mem1 := by
    funext r c; unfold gbU; rw [hk 0 _ (Or.inl rfl)]
  have hf2 : GbFac E nb kl ku ldab n (gbA kl ku ldab mem) mem2 :=
    ⟨by rw [e1]; intro i hi; rw [hk 2 i (Or.inr rfl)]; exact hf.rng i hi, by rw [e1, e2]; exact hf.inv,
      by rw [e2]; exact hf.dia⟩
  exact ⟨gbtrs_core hdv hp t hf2 hy, gbtrs_frame hp t hy⟩

/-- Results of `plasma_zgbsv` in terms of the matrix that is converted. -/
theorem gbsv_fac (hdv : IsDiv dv) (hmag : IsMag mag) (hnb : 0 < nb) (hib : 0 < ib) (hmpt : 0 < mpt) {rg : Bool}
    (hrg : rg = true → n ≤ nb * (1 + (ku + kl + nb - 1) / nb + (kl + nb - 1) / nb))
    (hl : (kl + nb) + max (ku + kl) (nb - 1) + 1 ≤ ldab) (hl' : n ≤ ldb) (hr : 0 < nrhs) {mem mem' : Buf × Nat → α}
    {st : Int} {A0 : Nat → Nat → α} (hA0 : Banded kl ku A0 ∨ n ≤ nb)
    (hz : ∀ r c, r < n → c < n → gbU nb kl ku ldab mem r c = A0 r c)
    (hx : GExec (gvPar nb n kl ku ldab nrhs ldb).env (zgbsv rg E mag dv big nb ib mpt n kl ku nrhs ldab ldb) mem mem' st) :
    (st = 0 → GbFac E nb kl ku ldab n A0 mem' ∧ ∀ i j, i < n → j < nrhs →
      ∑ l ∈ range n, A0 i l * mem' (.usr 1, l + j * ldb) = mem (.usr 1, i + j * ldb)) ∧
    (st ≠ 0 → ¬ ColsIndep n n A0) ∧
    (st ≠ 0 → 1 ≤ kl + ku → ∃ q : Nat, q < n ∧ st = ((q + 1 : Nat) : Int) ∧ ColsIndep n q A0 ∧ ColDep n q A0) ∧
    (∀ k x, (k = 0 → ∀ r c, r < n → c < n → r ≤ c + (kl + nb) → c ≤ r + max (ku + kl) (nb - 1) →
        x ≠ (ku + kl) + r + c * ldab - c) → (k = 2 → n ≤ x) →
      (k = 1 → ∀ i j, i < n → j < nrhs → x ≠ i + j * ldb) → mem' (.usr k, x) = mem (.usr k, x)) := by
  have hp : (gvPar nb n kl ku ldab nrhs ldb).OK := gb_ok hnb hl hl'
  unfold zgbsv at hx
  simp only at hx
  split at hx
  · rename_i hq
    have hn0 : n = 0 := by omega
    subst hn0
    have hst : st = 0 := by
      by_contra h0
      obtain ⟨i, hi, -⟩ := hx.failure hp.wf (by simp [tasks, Good.nil]) CodeOK.nil h0
      simp at hi
    refine ⟨fun _ => ⟨⟨fun i hi => by omega, fun r c hr => by omega, fun c hc => by omega⟩, fun i j hi => by omega⟩,
      fun h => absurd hst h, fun h => absurd hst h, fun k x _ _ _ => hx.frame _ (by simp [tasks])⟩
  · rename_i hq
    have htb := gb_tb (ib := ib) (mpt := mpt) hp hib hmpt
    have hfit := gb_fit (ib := ib) (mpt := mpt) hp hib hmpt
    set p := gvPar nb n kl ku ldab nrhs ldb with hpdef
    have homp : ompZgbsv rg E mag dv big ib mpt p.tA p.uP p.tB =
        phG 1 (pzgbtrf rg E mag dv big ib mpt p.tA p.uP) ++ okT (gbSolve 1 E dv .noTrans p.tA p.uP p.tB) := by
      unfold ompZgbsv; rw [if_neg]
      show ¬ (n = 0 ∨ nrhs = 0); omega
    rw [homp] at hx
    have hwI : Writes (fun t => t.1 = Buf.til 1) (pzge2desc (α := α) p.uB p.tB) := copyTasks_writes (A := p.tB)
    have hwO : Writes (fun t => t.1 = Buf.usr 1) (pzdesc2ge (α := α) p.tB p.uB) := copyTasks_writes (A := p.tB)
    have hwR : Writes (fun t => t.1 = Buf.til 1) (gbSolve 1 E dv .noTrans p.tA p.uP p.tB) := gbSolve_writes
    have hph := gbSolve_phases (E := E) (dv := dv) (t := .noTrans) htb (BPar.fits_tA hp) (BPar.fits_tB hp) 1
    have hloc := gbSolve_loc (E := E) (dv := dv) (t := .noTrans) htb (BPar.fits_tA hp) (BPar.fits_tB hp) (gb_fits_uP hnb)
      (φ := 1)
    have hnt : 0 < p.tB.d.nt := by
      rw [htb.nt]
      exact (lt_ceilDiv hnb).mpr (by omega)
    have hmt : 0 < p.tB.d.mt := by
      rw [htb.mt]
      exact (lt_ceilDiv hnb).mpr (by omega)
    have hpos : 0 < p.tB.d.mt * p.tB.d.nt := Nat.mul_pos hmt hnt
    have hR : ∀ t ∈ gbSolve 1 E dv .noTrans p.tA p.uP p.tB, 1 < t.phase ∧ t.phase < 2 + 2 * (p.tB.d.mt * p.tB.d.nt) := by
      intro t ht
      refine ⟨?_, by have := (hph.mem t ht).2.1; omega⟩
      unfold gbSolve at ht
      rw [if_pos rfl] at ht
      rcases List.mem_append.mp ht with ht | ht
      · exact pztbsmP_late hnt t ht
      · obtain ⟨t', -, rfl⟩ := List.mem_map.mp ht
        show 1 < 1 + 2 * (p.tB.d.mt * p.tB.d.nt)
        omega
    obtain ⟨m1, m2, m3, m4⟩ := gb_core hdv hmag hp hib hmpt hrg (q := 2 + 2 * (p.tB.d.mt * p.tB.d.nt)) (by omega)
      (BPar.geIn_good hp) copy_phase ⟨fun t ht => (hloc t ht).1, fun t ht => (hloc t ht).2, hph.cov⟩ hR
      (BPar.geOut_good hp) hwI hwR hwO hA0 hz hx
    refine ⟨fun h0 => ?_, m2, m3, fun k x h0 h2 h1 => m4 k x h0 h2 (fun _ => h1)⟩
    obtain ⟨⟨hx', hg⟩, hd, hf⟩ := m1 h0
    refine ⟨hf, fun i j hi hj => ?_⟩
    set s := texec (pzpb2desc none p.uA p.tA ++ pzge2desc p.uB p.tB) (view (eloc p.env) mem) with hs
    set F := texec (tasks (pzgbtrf rg E mag dv big ib mpt p.tA p.uP)) s with hF
    have hBe : p.tB.el F i j = mem (.usr 1, i + j * ldb) := by
      rw [hF, gwr_el (pzgbtrf_writes hfit.ok rg) (by simp [BPar.tA, BPar.tB, BPar.uP, bandT, TMat.full]), hs]
      exact gb_inB hp mem hi hj
    have hwu : Writes (fun t => t.1 = Buf.usr 0) (pzdesc2pb (α := α) none p.tA p.uA) := by
      intro t ht x i j hx
      obtain ⟨m, l, e, -⟩ := pzdesc2pb_wr (N := n) (BPar.al_tA hp) rfl rfl t ht x i j hx
      rw [e]; rfl
    have key := gbSolve_el (X0 := A0) hdv htb 1 .noTrans F hd.rng hd.inv hd.dia hi hj
    rw [hBe] at key
    rw [← key]
    refine sum_congr rfl fun l hl => ?_
    rw [mem_range] at hl
    congr 1
    refine (BPar.exec_uB hp hg hx' hl hj).trans ?_
    rw [texec_append, texec_phT, texec_append]
    refine (copyTasks_el (A := p.tB) (U := p.tB) (V := p.uB) (BPar.al_tB hp) (BPar.al_tB hp) (BPar.al_uB hp)
      (by simp [BPar.uB, BPar.tB, TMat.full]) _ hl hj).trans ?_
    rw [gwr_el hwu (by simp [BPar.tB]), texec_append, texec_append, texec_phT]

/-- **C64.** Every execution of `plasma_zgbsv` on a band matrix with zeros next to the band in the array returns 0
exactly when `A` is nonsingular (if there is a right-hand side).  Then `A*X = B`.  Otherwise, for `kl + ku ≥ 1`,
the value is the number of the first column of `A` that depends on the columns before.  Only `B`, `ipiv`, the
band with its fill-in, and the diagonal tiles are written.  For the hypotheses that the full claim does not have,
see `C64_padding_refuted`, `C64_ldab_alias`, `C65_diagonal_refuted`, and, on `hrg`, `C64_sections_race`. -/
theorem C64_gbsv_partial (hdv : IsDiv dv) (hmag : IsMag mag) (hnb : 0 < nb) (hib : 0 < ib) (hmpt : 0 < mpt) {rg : Bool}
    (hrg : rg = true → n ≤ nb * (1 + (ku + kl + nb - 1) / nb + (kl + nb - 1) / nb))
    (hl : (kl + nb) + max (ku + kl) (nb - 1) + 1 ≤ ldab) (hl' : n ≤ ldb) (hr : 0 < nrhs) (mem mem' : Buf × Nat → α)
    (st : Int) (hz : GbPad nb kl ku ldab n mem)
    (hx : GExec (gvPar nb n kl ku ldab nrhs ldb).env (zgbsv rg E mag dv big nb ib mpt n kl ku nrhs ldab ldb) mem mem' st) :
    (st = 0 ↔ ColsIndep n n (gbA kl ku ldab mem)) ∧
    (st = 0 →
      (∀ i j, i < n → j < nrhs →
        ∑ l ∈ range n, gbA kl ku ldab mem i l * mem' (.usr 1, l + j * ldb) = mem (.usr 1, i + j * ldb)) ∧
      (∀ i, i < n → 1 ≤ E.dec (mem' (.usr 2, i)) ∧ i ≤ gpv E mem' i ∧ gpv E mem' i < n) ∧
      (∃ L : Nat → Nat → α, (∀ r l, r < n → l < n → (r < l → L r l = 0) ∧ (r = l → L r l = 1)) ∧
        ∀ r c, r < n → c < n → interch (List.range n) (gpv E mem') (gbA kl ku ldab mem) r c =
          ∑ l ∈ range n, L r l * gbUp kl ku ldab mem' l c)) ∧
    (st ≠ 0 → 1 ≤ kl + ku → ∃ q : Nat, q < n ∧ st = ((q + 1 : Nat) : Int) ∧
      ColsIndep n q (gbA kl ku ldab mem) ∧ ColDep n q (gbA kl ku ldab mem)) ∧
    (∀ k x, (k = 0 → ∀ r c, r < n → c < n → r ≤ c + (kl + nb) → c ≤ r + max (ku + kl) (nb - 1) →
        x ≠ (ku + kl) + r + c * ldab - c) → (k = 2 → n ≤ x) →
      (k = 1 → ∀ i j, i < n → j < nrhs → x ≠ i + j * ldb) → mem' (.usr k, x) = mem (.usr k, x)) := by
  obtain ⟨m1, m2, m3, m4⟩ := gbsv_fac hdv hmag hnb hib hmpt hrg hl hl' hr (Or.inl (gbA_banded mem)) (gbU_pad hnb hl hz) hx
  refine ⟨⟨fun h => (m1 h).1.indep hnb, fun h => ?_⟩, fun h => ⟨(m1 h).2, (m1 h).1.rng,
    ((m1 h).1.lu hnb (by omega) (gbA_banded mem)).1⟩, m3, m4⟩
  by_contra h0
  exact m2 h0 h

/-- **C64, refutation: array elements next to the band.** For the identity of order 2 as a band matrix with
`kl = ku = 0`, tiles of size 2, and ones in the array elements outside the band, no execution of
`plasma_zgbsv` returns 0: the matrix is reported singular. -/
theorem C64_padding_refuted (hdv : IsDiv dv) (hmag : IsMag mag) (hib : 0 < ib) (hmpt : 0 < mpt) {rg : Bool}
    (mem mem' : Buf × Nat → α) (st : Int) (hm : ∀ x, mem (.usr 0, x) = 1)
    (hx : GExec (gvPar 2 2 0 0 4 1 2).env (zgbsv rg E mag dv big 2 ib mpt 2 0 0 1 4 2) mem mem' st) :
    (∀ r c, r < 2 → c < 2 → gbA 0 0 4 mem r c = if r = c then 1 else 0) ∧ st ≠ 0 := by
  have hA : ∀ r c, r < 2 → c < 2 → gbU 2 0 0 4 mem r c = (fun _ _ => (1 : α)) r c := by
    intro r c hr hc
    unfold gbU
    rw [if_pos (by rw [Nat.div_eq_of_lt hr, Nat.div_eq_of_lt hc]; simp [bTile, inB]), hm]
  obtain ⟨m1, -⟩ := gbsv_fac (nb := 2) (n := 2) (kl := 0) (ku := 0) (nrhs := 1) hdv hmag (by decide) hib hmpt
    (fun _ => by decide) (by decide) (le_refl 2) (by decide) (Or.inr (le_refl 2)) hA hx
  refine ⟨fun r c hr hc => ?_, fun h0 => ?_⟩
  · unfold gbA
    rw [hm]
    exact if_congr (by omega) rfl rfl
  · have h1 := (m1 h0).1.indep (by decide)
    have h2 := h1 (fun c => if c = 0 then 1 else -1) (fun r hr => by simp [sum_range_succ]) 0 (by decide)
    simp at h2

end

end Verif.Props

/-
`findVTpos` with the arithmetic of C's `int` (include/bulge.h).
-/
import Verif.Blgtrd

namespace Verif.Blg

open Verif.Layout Finset

/-- A result of `int` arithmetic, values from `-B` to `B-1` (`B = 2^31`); `none` is overflow, which is undefined behaviour. -/
def ckI (B : Nat) (x : Int) : Option Int := if -(B : Int) ≤ x ∧ x < B then some x else none

/-- `plasma_ceildiv` (include/bulge.h:28-34): the quotient is truncated towards zero, and one is added if it was not an integer. The division in double precision is
exact enough for all `int` arguments; `b` is not zero where it is called. -/
def cdivI (a b : Int) : Int := if a % b = 0 then a.tdiv b else a.tdiv b + 1

/-- The loop over the block columns before the current one (include/bulge.h:48-54), `c` iterations. -/
def prevI (B : Nat) (N NB V : Int) : Nat → Option Int
  | 0 => some 0
  | c + 1 => do
    let prevblkcnt ← prevI B N NB V c
    let mastersweep ← ckI B (c * V)
    let t ← ckI B (mastersweep + 2)
    let d ← ckI B (N - t)
    ckI B (prevblkcnt + cdivI d NB)

/-- `findVTpos` (include/bulge.h:38-66), positions `(Vpos, TAUpos, Tpos, myblkid)`. `none`: undefined behaviour, a division by zero (lines 47, 57) or an overflow. -/
def findVTposI (B : Nat) (N NB V sweep st : Int) : Option (Int × Int × Int × Int) :=
  if V = 0 then none else do
    let nbprevcolblk := sweep.tdiv V
    let prevblkcnt ← prevI B N NB V nbprevcolblk.toNat
    let d ← ckI B (st - sweep)
    let b1 ← ckI B (prevblkcnt + cdivI d NB)
    let blkid ← ckI B (b1 - 1)
    let locj := sweep.tmod V
    let l1 ← ckI B (NB + V)
    let ldv ← ckI B (l1 - 1)
    let bV ← ckI B (blkid * V)
    let bVL ← ckI B (bV * ldv)
    let jL ← ckI B (locj * ldv)
    let v1 ← ckI B (bVL + jL)
    let vpos ← ckI B (v1 + locj)
    let taupos ← ckI B (bV + locj)
    let bVV ← ckI B (bV * V)
    let jV ← ckI B (locj * V)
    let t1 ← ckI B (bVV + jV)
    let tpos ← ckI B (t1 + locj)
    pure (vpos, taupos, tpos, blkid)

theorem ckI_nat {B x : Nat} (h : x < B) : ckI B (x : Int) = some (x : Int) := by
  unfold ckI
  rw [if_pos (by omega)]

theorem ckI_some {B : Nat} {x : Int} {y : Nat} (e : x = y) (h : y < B) : ckI B x = some (y : Int) := by
  rw [e]; exact ckI_nat h

theorem cdivI_nat {a b : Nat} (hb : 0 < b) : cdivI (a : Int) (b : Int) = (ceilDiv a b : Nat) := by
  unfold cdivI ceilDiv
  have h1 := Nat.div_add_mod a b
  have h2 := Nat.mod_lt a hb
  rw [← Int.natCast_emod, ← Int.ofNat_tdiv]
  have e : (a + b - 1) / b = if a % b = 0 then a / b else a / b + 1 := by
    set q := a / b
    set r := a % b
    split_ifs with h
    · rw [show a + b - 1 = (b - 1) + b * q by omega, Nat.add_mul_div_left _ _ hb, Nat.div_eq_of_lt (by omega), Nat.zero_add]
    · rw [show a + b - 1 = (r - 1) + b * (q + 1) by rw [Nat.mul_add]; omega, Nat.add_mul_div_left _ _ hb, Nat.div_eq_of_lt (by omega), Nat.zero_add]
  rw [e]
  by_cases h : a % b = 0
  · rw [if_pos (by exact_mod_cast h), if_pos h]
  · rw [if_neg (by exact_mod_cast h), if_neg h]
    push_cast
    rfl

theorem prevI_nat {B N NB V : Nat} (hN : N < B) (hNB : 0 < NB) {c : Nat} (hc : ∀ j, j < c → j * V + 2 ≤ N)
    (hp : prevcnt N NB V c < B) : prevI B N NB V c = some (prevcnt N NB V c : Int) := by
  induction c with
  | zero => simp [prevI, prevcnt]
  | succ c ih =>
    have e : prevcnt N NB V (c + 1) = prevcnt N NB V c + colcnt N NB V c := Finset.sum_range_succ ..
    have h2 := hc c (Nat.lt_succ_self c)
    unfold prevI
    rw [ih (fun j hj => hc j (by omega)) (by omega)]
    simp only [Option.bind_eq_bind, Option.bind_some]
    rw [ckI_some (y := c * V) (by push_cast; ring) (by omega)]
    simp only [Option.bind_some]
    rw [ckI_some (y := c * V + 2) (by push_cast; ring) (by omega)]
    simp only [Option.bind_some]
    rw [ckI_some (y := N - (c * V + 2)) (by rw [Nat.cast_sub h2]) (by omega)]
    simp only [Option.bind_some]
    rw [cdivI_nat hNB, ckI_some (y := prevcnt N NB V (c + 1)) (by rw [e]; unfold colcnt; push_cast; ring) hp]

theorem findVTposI_nat {B N NB V s st : Nat} (hN : N < B) (hNB : 2 ≤ NB) (hV : 0 < V) (hB : NB + V < B) (hs : s + 1 < N) (hst : s < st) (hst' : st < N)
    (hv : vpos N NB V s st < B) :
    findVTposI B N NB V s st = some ((vpos N NB V s st : Int), (taupos N NB V s st : Int), (tpos N NB V s st : Int), (blkid N NB V s st : Int)) := by
  have hb1 : 1 ≤ ceilDiv (st - s) NB := by
    unfold ceilDiv
    exact (Nat.one_le_div_iff (by omega)).mpr (by omega)
  have hL : V ≤ ldv NB V ∧ 2 ≤ ldv NB V ∧ ldv NB V + 1 = NB + V := by unfold ldv; omega
  have hbid : blkid N NB V s st + 1 = prevcnt N NB V (s / V) + ceilDiv (st - s) NB := by unfold blkid; omega
  set L := ldv NB V with hLd
  set b := blkid N NB V s st with hbd
  set j := s % V with hjd
  have ev : vpos N NB V s st = b * V * L + j * L + j := rfl
  have et : taupos N NB V s st = b * V + j := rfl
  have eT : tpos N NB V s st = b * V * V + j * V + j := rfl
  have m1 : b * V ≤ b * V * L := Nat.le_mul_of_pos_right _ (by omega)
  have m2 : b * V * V ≤ b * V * L := Nat.mul_le_mul_left _ hL.1
  have m3 : j * V ≤ j * L := Nat.mul_le_mul_left _ hL.1
  have m4 : 2 * b ≤ b * V * L := by
    have : b * 1 * 2 ≤ b * V * L := Nat.mul_le_mul (Nat.mul_le_mul_left _ hV) hL.2.1
    omega
  have hb : b + 1 < B := by omega
  unfold findVTposI
  rw [if_neg (by omega)]
  have e1 : ((s : Int).tdiv V).toNat = s / V := by rw [← Int.ofNat_tdiv, Int.toNat_natCast]
  have e2 : (s : Int).tmod V = (j : Nat) := by rw [hjd, Int.ofNat_tmod]
  simp only [e1, e2]
  rw [prevI_nat hN (by omega) (fun i hi => ?_) (by omega)]
  · simp only [Option.bind_eq_bind, Option.bind_some]
    rw [ckI_some (y := st - s) (by rw [Nat.cast_sub (by omega)]) (by omega)]
    simp only [Option.bind_some]
    rw [cdivI_nat (by omega), ckI_some (y := b + 1) (by rw [hbid]; push_cast; ring) (by omega)]
    simp only [Option.bind_some]
    rw [ckI_some (y := b) (by push_cast; ring) (by omega)]
    simp only [Option.bind_some]
    rw [ckI_some (y := NB + V) (by push_cast; ring) (by omega)]
    simp only [Option.bind_some]
    rw [ckI_some (y := L) (by rw [← hL.2.2]; push_cast; ring) (by omega)]
    simp only [Option.bind_some]
    rw [ckI_some (y := b * V) (by push_cast; ring) (by omega)]
    simp only [Option.bind_some]
    rw [ckI_some (y := b * V * L) (by push_cast; ring) (by omega)]
    simp only [Option.bind_some]
    rw [ckI_some (y := j * L) (by push_cast; ring) (by omega)]
    simp only [Option.bind_some]
    rw [ckI_some (y := b * V * L + j * L) (by push_cast; ring) (by omega)]
    simp only [Option.bind_some]
    rw [ckI_some (y := b * V * L + j * L + j) (by push_cast; ring) (by omega)]
    simp only [Option.bind_some]
    rw [ckI_some (y := b * V + j) (by push_cast; ring) (by omega)]
    simp only [Option.bind_some]
    rw [ckI_some (y := b * V * V) (by push_cast; ring) (by omega)]
    simp only [Option.bind_some]
    rw [ckI_some (y := j * V) (by push_cast; ring) (by omega)]
    simp only [Option.bind_some]
    rw [ckI_some (y := b * V * V + j * V) (by push_cast; ring) (by omega)]
    simp only [Option.bind_some]
    rw [ckI_some (y := b * V * V + j * V + j) (by push_cast; ring) (by omega)]
    rfl
  · have h1 := Nat.div_mul_le_self s V
    have h2 : (i + 1) * V ≤ s / V * V := Nat.mul_le_mul_right _ hi
    rw [Nat.add_mul] at h2
    omega

end Verif.Blg

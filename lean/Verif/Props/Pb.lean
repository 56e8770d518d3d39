/-
Properties of `plasma_zpbtrf`, `plasma_zpbtrs` and `plasma_zpbsv`: C47.
-/
import Verif.Props.Band
import Verif.Props.Posv
import Verif.Props.Geswp
import Verif.Tbsm
import Verif.Jump

namespace Verif.Props

open Verif.Layout Verif.Tile Verif.Sched Finset

universe v

variable {𝕜 : Type v} [RCLike 𝕜] [DecidableEq 𝕜]

/-- The matrix stored in LAPACK band storage (compute/zpbtrf.c:44-56): zero outside the band
and outside the triangle `u`. -/
def abE {α : Type v} [Zero α] (u : Uplo) (kd ld : Nat) (mem : Buf × Nat → α) (r c : Nat) : α :=
  if InBand u kd r c then mem (.usr 0, bandIx u kd ld r c) else 0

/-- `plasma_omp_zpbtrf` (compute/zpbtrf.c:202-242). -/
noncomputable def ompZpbtrf {M : Type} (pk : Uplo → Nat → Tl 𝕜 → Tl 𝕜) (info : Uplo → Nat → Tl 𝕜 → Nat)
    (dv : 𝕜 → 𝕜 → 𝕜) (u : Uplo) (A : TMat M) : List (GTTask (M × Nat × Nat) 𝕜) :=
  if A.d.m = 0 then [] else pzpbtrf pk info dv u A

/-- Tasks created by `plasma_zpbtrf` (compute/zpbtrf.c:77-158) for valid arguments: quick
return for `n = 0`, otherwise conversion to band tiles, factorization, conversion back.  The tasks of the
conversions do not test the status of the sequence (core_blas/core_zlacpy_band.c:115-127,212-225); they are not
created if the status is an error when `plasma_pzpb2desc`, `plasma_pzdesc2pb` are called.  (For
`kd ≥ n` the descriptor is rejected before any task is created, see `C05_band_wide_rejected`.) -/
noncomputable def zpbtrf (nb : Nat) (pk : Uplo → Nat → Tl 𝕜 → Tl 𝕜) (info : Uplo → Nat → Tl 𝕜 → Nat)
    (dv : 𝕜 → 𝕜 → 𝕜) (u : Uplo) (n kd ldab : Nat) : List (GTTask (Buf × Nat × Nat) 𝕜) :=
  let p := pbPar nb u n kd ldab 0 n n
  if n = 0 then [] else
    rawT (pzpb2desc (some u) p.uA p.tA) ++ ompZpbtrf pk info dv u p.tA ++ rawT (pzdesc2pb (some u) p.tA p.uA)

/-- The two band solves (compute/zpbtrs.c:279-294, compute/zpbsv.c:286-301). -/
def pbSolve {M : Type} (dv : 𝕜 → 𝕜 → 𝕜) (u : Uplo) (A B : TMat M) : List (TTask (M × Nat × Nat) 𝕜) :=
  pztbsm dv .left u (poT1 u) .nonUnit 1 A B ++ pztbsm dv .left u (poT2 u) .nonUnit 1 A B

/-- `plasma_omp_zpbtrs` (compute/zpbtrs.c:236-295). -/
def ompZpbtrs {M : Type} (dv : 𝕜 → 𝕜 → 𝕜) (u : Uplo) (A B : TMat M) : List (TTask (M × Nat × Nat) 𝕜) :=
  if A.d.n = 0 ∨ B.d.n = 0 then [] else pbSolve dv u A B

/-- `plasma_omp_zpbsv` (compute/zpbsv.c:242-302). -/
noncomputable def ompZpbsv {M : Type} (pk : Uplo → Nat → Tl 𝕜 → Tl 𝕜) (info : Uplo → Nat → Tl 𝕜 → Nat)
    (dv : 𝕜 → 𝕜 → 𝕜) (u : Uplo) (A B : TMat M) : List (GTTask (M × Nat × Nat) 𝕜) :=
  if A.d.n = 0 ∨ B.d.n = 0 then [] else pzpbtrf pk info dv u A ++ okT (pbSolve dv u A B)

/-- Tasks created by `plasma_zpbtrs` (compute/zpbtrs.c:81-182) for valid arguments.  The quick
return is taken only if both `n` and `nrhs` are zero. -/
def zpbtrs (nb : Nat) (dv : 𝕜 → 𝕜 → 𝕜) (u : Uplo) (n kd nrhs ldab ldb : Nat) : List (TTask (Buf × Nat × Nat) 𝕜) :=
  let p := pbPar nb u n kd ldab nrhs n ldb
  if max n nrhs = 0 then [] else
    (pzpb2desc (some u) p.uA p.tA ++ pzge2desc p.uB p.tB) ++ ompZpbtrs dv u p.tA p.tB ++ pzdesc2ge p.tB p.uB

/-- Tasks created by `plasma_zpbsv` (compute/zpbsv.c:92-193) for valid arguments. -/
noncomputable def zpbsv (nb : Nat) (pk : Uplo → Nat → Tl 𝕜 → Tl 𝕜) (info : Uplo → Nat → Tl 𝕜 → Nat)
    (dv : 𝕜 → 𝕜 → 𝕜) (u : Uplo) (n kd nrhs ldab ldb : Nat) : List (GTTask (Buf × Nat × Nat) 𝕜) :=
  let p := pbPar nb u n kd ldab nrhs ldb ldb
  if min n nrhs = 0 then [] else
    (rawT (pzpb2desc (some u) p.uA p.tA) ++ okT (pzge2desc p.uB p.tB)) ++ ompZpbsv pk info dv u p.tA p.tB ++
      (rawT (pzdesc2pb (some u) p.tA p.uA) ++ okT (pzdesc2ge p.tB p.uB))

section
variable {nb n kd ldab nrhs lmb ldb : Nat} {u : Uplo}

/-- Number of tiles in a column of the band. -/
theorem pb_bkt : bkt u (pbPar nb u n kd ldab nrhs lmb ldb).tA.d = 1 + (kd + nb - 1) / nb := by
  cases u <;> simp [bkt, BPar.tA, bandT, pbPar]

theorem pb_bkt_pos : 0 < bkt u (pbPar nb u n kd ldab nrhs lmb ldb).tA.d := by
  rw [pb_bkt]; exact Nat.lt_of_lt_of_le Nat.zero_lt_one (Nat.le_add_right _ _)

theorem pb_bkt_two (hnb : 0 < nb) (hk : 1 ≤ kd) : 2 ≤ bkt u (pbPar nb u n kd ldab nrhs lmb ldb).tA.d := by
  rw [pb_bkt]
  have : 1 ≤ (kd + nb - 1) / nb := by rw [Nat.le_div_iff_mul_le hnb]; omega
  omega

theorem bTile_iff (hnb : 0 < nb) {m l : Nat} :
    bTile (some u) nb kd kd m l ↔ inBandT u (bkt u (pbPar nb u n kd ldab nrhs lmb ldb).tA.d) m l := by
  rw [pb_bkt]
  have k1 : l - m < 1 + (kd + nb - 1) / nb ↔ l * nb - m * nb < nb + kd := by rw [BPar.lt_bkt hnb, Nat.sub_mul]
  have k2 : m - l < 1 + (kd + nb - 1) / nb ↔ m * nb - l * nb < nb + kd := by rw [BPar.lt_bkt hnb, Nat.sub_mul]
  have f1 : l ≤ m → l * nb ≤ m * nb := fun h => Nat.mul_le_mul_right _ h
  have f2 : m ≤ l → m * nb ≤ l * nb := fun h => Nat.mul_le_mul_right _ h
  cases u <;> simp only [bTile, inBandT, reduceCtorEq, if_false, if_true] <;>
    generalize m * nb = X at * <;> generalize l * nb = Y at * <;>
    generalize (kd + nb - 1) / nb = Z at * <;> omega

theorem pb_fits (hp : (pbPar nb u n kd ldab nrhs lmb ldb).OK) :
    FitsOn (pbPar nb u n kd ldab nrhs lmb ldb).env nb
      (inBandT u (bkt u (pbPar nb u n kd ldab nrhs lmb ldb).tA.d)) (pbPar nb u n kd ldab nrhs lmb ldb).tA :=
  (BPar.fits_tA hp).mono fun _ _ h => (bTile_iff hp.pos).mpr h

/-- A tile of the stored triangle. -/
theorem pb_div (hnb : 0 < nb) {r c : Nat} (hcr : c ≤ r) :
    r / nb < c / nb + bkt u (pbPar nb u n kd ldab nrhs lmb ldb).tA.d ↔
      (u = .lower → bTile (some u) nb kd kd (r / nb) (c / nb)) ∧
      (u = .upper → bTile (some u) nb kd kd (c / nb) (r / nb)) := by
  rw [bTile_iff hnb (n := n) (ldab := ldab) (nrhs := nrhs) (lmb := lmb) (ldb := ldb),
    bTile_iff hnb (n := n) (ldab := ldab) (nrhs := nrhs) (lmb := lmb) (ldb := ldb)]
  have := Nat.div_le_div_right (c := nb) hcr
  cases u <;> simp [inBandT, this]

/-- The band of the tiles after the conversion is the user's matrix. -/
theorem pb_low (hp : (pbPar nb u n kd ldab nrhs lmb ldb).OK) {s : Store (Buf × Nat × Nat) 𝕜} {mem : Buf × Nat → 𝕜}
    (hs : ∀ r c, r < n → c < n → bTile (some u) nb kd kd (r / nb) (c / nb) →
      (pbPar nb u n kd ldab nrhs lmb ldb).tA.el s r c = abE u kd ldab mem r c) {r c : Nat} (hcr : c ≤ r) (hr : r < n) :
    bandE nb (bkt u (pbPar nb u n kd ldab nrhs lmb ldb).tA.d) (lowE u ((pbPar nb u n kd ldab nrhs lmb ldb).tA.el s)) r c =
      lowE u (abE u kd ldab mem) r c := by
  have hb : 0 < nb := hp.pos
  unfold bandE
  rw [if_congr (pb_div hb hcr) rfl rfl]
  have hno : ∀ i j, ¬ bTile (some u) nb kd kd (i / nb) (j / nb) → abE u kd ldab mem i j = 0 := by
    intro i j hn
    unfold abE
    rw [if_neg fun h => hn (BPar.bTile_of_inB hb (inB_pb.mpr h))]
  unfold lowE
  cases u
  · simp only [reduceCtorEq, if_false, false_imp_iff, true_and, true_imp_iff]
    split
    · rw [hs c r (by omega) hr (by assumption)]
    · rw [hno c r (by assumption), star_zero]
  · simp only [if_true, reduceCtorEq, false_imp_iff, and_true, true_imp_iff]
    split
    · rw [hs r c hr (by omega) (by assumption)]
    · rw [hno r c (by assumption)]

theorem lowE_ab_zero (mem : Buf × Nat → 𝕜) {r c : Nat} (h : c + kd < r) : lowE u (abE u kd ldab mem) r c = 0 := by
  unfold lowE abE
  cases u
  · simp only [reduceCtorEq, if_false]
    rw [if_neg (by simp [InBand]; omega), star_zero]
  · simp only [if_true]
    rw [if_neg (by simp [InBand]; omega)]

/-- Copying back only the band loses nothing of a factor. -/
theorem pb_low_out (hp : (pbPar nb u n kd ldab nrhs lmb ldb).OK) {s : Store (Buf × Nat × Nat) 𝕜}
    {mem mem' : Buf × Nat → 𝕜}
    (hch : Chol n (lowE u (abE u kd ldab mem)) (bandE nb (bkt u (pbPar nb u n kd ldab nrhs lmb ldb).tA.d)
      (lowE u ((pbPar nb u n kd ldab nrhs lmb ldb).tA.el s))))
    (hs : ∀ r c, r < n → c < n → InBand u kd r c → mem' (.usr 0, bandIx u kd ldab r c) =
      (pbPar nb u n kd ldab nrhs lmb ldb).tA.el s r c) {r c : Nat} (hcr : c ≤ r) (hr : r < n) :
    lowE u (abE u kd ldab mem') r c = bandE nb (bkt u (pbPar nb u n kd ldab nrhs lmb ldb).tA.d)
      (lowE u ((pbPar nb u n kd ldab nrhs lmb ldb).tA.el s)) r c := by
  have hb : 0 < nb := hp.pos
  by_cases hk : c + kd < r
  · rw [lowE_ab_zero _ hk, hch.band (fun r c _ h => lowE_ab_zero mem h) c r hr hk]
  · unfold bandE
    have hI : (u = .lower → InBand u kd r c) ∧ (u = .upper → InBand u kd c r) := by
      cases u <;> simp [InBand] <;> omega
    rw [if_pos ((pb_div hb hcr).mpr ⟨fun h => BPar.bTile_of_inB hb (inB_pb.mpr (hI.1 h)),
      fun h => BPar.bTile_of_inB hb (inB_pb.mpr (hI.2 h))⟩)]
    unfold lowE abE
    cases u
    · have hI := hI.2 rfl
      simp only [reduceCtorEq, if_false]
      rw [if_pos hI, hs c r (by omega) hr hI]
    · have hI := hI.1 rfl
      simp only [if_true]
      rw [if_pos hI, hs r c hr (by omega) hI]

theorem wr_el {M : Type} {P : List (TTask (M × Nat × Nat) 𝕜)} {x : M} {A : TMat M} (h : Writes (fun t => t.1 = x) P)
    (hx : A.id ≠ x) (s : Store (M × Nat × Nat) 𝕜) : A.el (texec P s) = A.el s := by
  funext r c
  simp only [TMat.el]
  rw [h.frame s]
  exact hx

end

section
variable {nb n kd ldab nrhs lmb ldb : Nat} {u : Uplo} {pk : Uplo → Nat → Tl 𝕜 → Tl 𝕜}
  {info : Uplo → Nat → Tl 𝕜 → Nat} {dv : 𝕜 → 𝕜 → 𝕜}

/-- Contents of the band tiles when the factorization starts. -/
theorem pb_in (hp : (pbPar nb u n kd ldab nrhs lmb ldb).OK) {IB : List (TTask (Buf × Nat × Nat) 𝕜)}
    (hwI : Writes (fun t => t.1 = Buf.til 1) IB) (mem : Buf × Nat → 𝕜) :
    ∀ r c, r < n → c < n → bTile (some u) nb kd kd (r / nb) (c / nb) →
      (pbPar nb u n kd ldab nrhs lmb ldb).tA.el (texec (pzpb2desc (some u) (pbPar nb u n kd ldab nrhs lmb ldb).uA
        (pbPar nb u n kd ldab nrhs lmb ldb).tA ++ IB) (view (eloc (pbPar nb u n kd ldab nrhs lmb ldb).env) mem)) r c =
        abE u kd ldab mem r c := by
  intro r c hr hc ht
  rw [texec_append, wr_el hwI (by simp [BPar.tA, bandT])]
  refine (BPar.in_el hp mem hr hc ht).trans ?_
  unfold abE
  by_cases hB : InBand u kd r c
  · rw [ab_pb _ hB]
    exact if_congr inB_pb rfl rfl
  · exact (if_neg fun h => hB (inB_pb.mp h)).trans (if_neg hB).symm

/-- The common part of `plasma_zpbtrf` and `plasma_zpbsv`: a factorization followed by tasks `R`
that cannot fail. -/
theorem pb_core (hpk : IsPotrf pk info) (hdv : IsDiv dv) (hp : (pbPar nb u n kd ldab nrhs lmb ldb).OK)
    {IB R OB : List (TTask (Buf × Nat × Nat) 𝕜)}
    (hgI : Good (evalid (pbPar nb u n kd ldab nrhs lmb ldb).env) IB)
    (hgR : Good (evalid (pbPar nb u n kd ldab nrhs lmb ldb).env) R)
    (hgO : Good (evalid (pbPar nb u n kd ldab nrhs lmb ldb).env) OB)
    (hwI : Writes (fun t => t.1 = Buf.til 1) IB) (hwR : Writes (fun t => t.1 = Buf.til 1) R)
    (hwO : Writes (fun t => t.1 = Buf.usr 1) OB) {mem mem' : Buf × Nat → 𝕜} {st : Int}
    (hx : GExec (pbPar nb u n kd ldab nrhs lmb ldb).env
      ((rawT (pzpb2desc (some u) (pbPar nb u n kd ldab nrhs lmb ldb).uA (pbPar nb u n kd ldab nrhs lmb ldb).tA) ++ okT IB) ++
        (pzpbtrf pk info dv u (pbPar nb u n kd ldab nrhs lmb ldb).tA ++ okT R) ++
        (rawT (pzdesc2pb (some u) (pbPar nb u n kd ldab nrhs lmb ldb).tA (pbPar nb u n kd ldab nrhs lmb ldb).uA) ++ okT OB))
      mem mem' st) :
    (st = 0 →
      Exec (pbPar nb u n kd ldab nrhs lmb ldb).env
        ((pzpb2desc (some u) (pbPar nb u n kd ldab nrhs lmb ldb).uA (pbPar nb u n kd ldab nrhs lmb ldb).tA ++ IB) ++
        (tasks (pzpbtrf pk info dv u (pbPar nb u n kd ldab nrhs lmb ldb).tA) ++ R) ++
        (pzdesc2pb (some u) (pbPar nb u n kd ldab nrhs lmb ldb).tA (pbPar nb u n kd ldab nrhs lmb ldb).uA ++ OB)) mem mem' ∧
      Chol n (lowE u (abE u kd ldab mem)) (lowE u (abE u kd ldab mem')) ∧
      ∀ r c, c ≤ r → r < n → lowE u (abE u kd ldab mem') r c =
        bandE nb (bkt u (pbPar nb u n kd ldab nrhs lmb ldb).tA.d) (lowE u ((pbPar nb u n kd ldab nrhs lmb ldb).tA.el
          (texec (tasks (pzpbtrf pk info dv u (pbPar nb u n kd ldab nrhs lmb ldb).tA)) (texec
            (pzpb2desc (some u) (pbPar nb u n kd ldab nrhs lmb ldb).uA (pbPar nb u n kd ldab nrhs lmb ldb).tA ++ IB)
            (view (eloc (pbPar nb u n kd ldab nrhs lmb ldb).env) mem))))) r c) ∧
    (st ≠ 0 → ¬ ∃ L, Chol n (lowE u (abE u kd ldab mem)) L) ∧
    (st ≠ 0 → 1 ≤ kd → ∃ q : Nat, st = (q : Int) + 1 ∧ q < n ∧ (∃ L, Chol q (lowE u (abE u kd ldab mem)) L) ∧
        ¬ ∃ L, Chol (q + 1) (lowE u (abE u kd ldab mem)) L) ∧
    (∀ k x, (k = 0 → ∀ r c, r < n → c < n → InBand u kd r c → x ≠ bandIx u kd ldab r c) →
      ((∃ t, t ∈ OB) → k = 1 → ∀ r c, r < n → c < nrhs → x ≠ r + c * ldb) → mem' (.usr k, x) = mem (.usr k, x)) := by
  have hnb : 0 < nb := hp.pos
  set p := pbPar nb u n kd ldab nrhs lmb ldb with hpdef
  set I := pzpb2desc (α := 𝕜) (some u) p.uA p.tA ++ IB with hI
  set O := pzdesc2pb (α := 𝕜) (some u) p.tA p.uA ++ OB with hO
  set GI := rawT (pzpb2desc (α := 𝕜) (some u) p.uA p.tA) ++ okT IB with hGI
  set GO := rawT (pzdesc2pb (α := 𝕜) (some u) p.tA p.uA) ++ okT OB with hGO
  have tI : tasks GI = I := by simp [hGI, hI]
  have tO : tasks GO = O := by simp [hGO, hO]
  have cI : CodeOK GI := (codeOK_raw _).append (CodeOK.ok _)
  have cO : CodeOK GO := (codeOK_raw _).append (CodeOK.ok _)
  have sI : Safe GI := fun t ht => (List.mem_append.mp ht).elim (safe_raw _ t) (safe_ok _ t)
  have sO : Safe GO := fun t ht => (List.mem_append.mp ht).elim (safe_raw _ t) (safe_ok _ t)
  have hA : p.tA.Al nb := BPar.al_tA hp
  have hkt : 0 < bkt u p.tA.d := pb_bkt_pos
  have hgP : Good (evalid p.env) (tasks (pzpbtrf pk info dv u p.tA)) :=
    pzpbtrf_good (N := n) hpk (pb_fits hp) hkt rfl rfl
  have hgin : Good (evalid p.env) (pzpb2desc (α := 𝕜) (some u) p.uA p.tA) := BPar.in_good hp
  have hgout : Good (evalid p.env) (pzdesc2pb (α := 𝕜) (some u) p.tA p.uA) := BPar.out_good hp
  have e1 : tasks (pzpbtrf pk info dv u p.tA ++ okT R) = tasks (pzpbtrf pk info dv u p.tA) ++ R := by simp
  have hg : Good (evalid p.env) (I ++ tasks (pzpbtrf pk info dv u p.tA ++ okT R) ++ O) := by
    rw [e1]
    exact ((hgin.append hgI).append (hgP.append hgR)).append (hgout.append hgO)
  have hg' : GoodC (evalid p.env) (tasks GI ++ tasks (pzpbtrf pk info dv u p.tA ++ okT R) ++ tasks GO) := by
    rw [tI, tO]; exact hg.toC
  have hco : CodeOK (pzpbtrf pk info dv u p.tA ++ okT R) :=
    (pzpbtrf_codeOK (N := n) hpk hA rfl rfl).append (CodeOK.ok _)
  set s := texec I (view (eloc p.env) mem) with hs
  have hin : ∀ r c, r < n → c < n → bTile (some u) nb kd kd (r / nb) (c / nb) →
      p.tA.el s r c = abE u kd ldab mem r c := pb_in hp hwI mem
  have hcg : ∀ q, q ≤ n → ∀ L, (Chol q (bandE nb (bkt u p.tA.d) (lowE u (p.tA.el s))) L ↔
      Chol q (lowE u (abE u kd ldab mem)) L) := by
    intro q hq L
    constructor <;> intro h
    · exact h.congr (fun r c hc hr => pb_low hp hin hc (by omega)) (fun _ _ _ _ => rfl)
    · exact h.congr (fun r c hc hr => (pb_low hp hin hc (by omega)).symm) (fun _ _ _ _ => rfl)
  have hbad : ∀ i, tcode (pzpbtrf pk info dv u p.tA ++ okT R) s i ≠ 0 →
      (∀ j < i, tcode (pzpbtrf pk info dv u p.tA ++ okT R) s j = 0) →
      ∃ q : Nat, tcode (pzpbtrf pk info dv u p.tA ++ okT R) s i = (q : Int) + 1 ∧ q < n ∧
        (∃ L, Chol q (lowE u (abE u kd ldab mem)) L) ∧ ¬ ∃ L, Chol (q + 1) (lowE u (abE u kd ldab mem)) L := by
    intro i hi hf
    have hil : i < (pzpbtrf pk info dv u p.tA).length := by
      by_contra hge
      obtain ⟨j, rfl⟩ := Nat.exists_eq_add_of_le (Nat.le_of_not_lt hge)
      rw [tcode_append_right, tcode_ok] at hi
      exact hi rfl
    rw [tcode_append_left _ _ _ hil] at hi ⊢
    obtain ⟨q, hq1, hqn, ⟨L, hL⟩, hq3⟩ := pzpbtrf_bad (N := n) (u := u) hpk hdv hA hkt rfl rfl s hi
      (fun j hj => by rw [← tcode_append_left _ (okT R) s (by omega)]; exact hf j hj)
    exact ⟨q, hq1, hqn, ⟨L, (hcg q (by omega) L).mp hL⟩, fun ⟨L, hL⟩ => hq3 ⟨L, (hcg (q + 1) hqn L).mpr hL⟩⟩
  refine ⟨?_, ?_, ?_, ?_⟩
  · rintro rfl
    obtain ⟨hx', hz⟩ := sandG_success hp.wf hg' cI hco cO hx
    rw [tI] at hz
    rw [tI, tO] at hx'
    have hz1 : ∀ i, tcode (pzpbtrf pk info dv u p.tA) s i = 0 := by
      intro i
      by_cases hi : i < (pzpbtrf pk info dv u p.tA).length
      · rw [← tcode_append_left _ (okT R) s hi]; exact hz i
      · exact tcode_len _ _ (by omega)
    set F := texec (tasks (pzpbtrf pk info dv u p.tA)) s with hF
    have hch0 := pzpbtrf_ok (N := n) (u := u) hpk hdv hA hkt rfl rfl s hz1
    have hch : Chol n (lowE u (abE u kd ldab mem)) (bandE nb (bkt u p.tA.d) (lowE u (p.tA.el F))) :=
      (hcg n le_rfl _).mp hch0
    have hout : ∀ r c, r < n → c < n → InBand u kd r c → mem' (.usr 0, bandIx u kd ldab r c) = p.tA.el F r c := by
      intro r c hr hc hB
      have hB' : inB (some u) nb kd kd (r / nb) (c / nb) r c := inB_pb.mpr hB
      have ht := BPar.bTile_of_inB hnb hB'
      have h1 := BPar.exec_uA hp hg.toC hx' hr hc ht hB'
      rw [hpdef, ab_pb _ hB, ← hpdef] at h1
      rw [h1, e1, texec_append, hO, texec_append, wr_el hwO (by simp [BPar.uA, TMat.full]), texec_append, ← hs,
        texec_append]
      refine (pzdesc2pb_el (N := n) hA (BPar.al_uA hp) rfl rfl
        (by simp [BPar.uA, BPar.tA, TMat.full, bandT]) _ hr hc ht).trans ?_
      refine (if_pos hB').trans ?_
      rw [wr_el hwR (by simp [BPar.tA, bandT])]
    have hlo := fun r c (hc : c ≤ r) (hr : r < n) => pb_low_out (r := r) (c := c) hp hch hout hc hr
    rw [e1] at hx'
    exact ⟨hx', hch.congr (fun _ _ _ _ => rfl) (fun r c hc hr => (hlo r c hc hr).symm), hlo⟩
  · intro h0
    obtain ⟨i, hi⟩ := sandG_failure_some hp.wf hg' cI hco cO sI sO hx h0
    rw [tI] at hi
    have hex : ∃ i, tcode (pzpbtrf pk info dv u p.tA ++ okT R) s i ≠ 0 := ⟨i, by rw [hi]; exact h0⟩
    classical
    obtain ⟨q, -, hqn, -, hno⟩ := hbad (Nat.find hex) (Nat.find_spec hex)
      (fun j hj => not_not.mp (Nat.find_min hex hj))
    rintro ⟨L, hL⟩
    exact hno ⟨L, hL.mono hqn⟩
  · intro h0 hk
    have hch : FChain (pzpbtrf pk info dv u p.tA ++ okT R) :=
      (pzpbtrf_chain (N := n) hA rfl rfl (pb_bkt_two hnb hk)).append (safe_ok _)
    obtain ⟨i, hi, hf⟩ := sandG_failure hp.wf hg' cI hco cO sI sO hch hx h0
    rw [tI] at hi hf
    obtain ⟨q, hq, h2⟩ := hbad i (by rw [hi]; exact h0) hf
    exact ⟨q, by rw [← hi]; exact hq, h2⟩
  · intro k x h0 h1
    have e2 : tasks (GI ++ (pzpbtrf pk info dv u p.tA ++ okT R) ++ GO) =
        I ++ tasks (pzpbtrf pk info dv u p.tA ++ okT R) ++ O := by rw [tasks_append, tasks_append, tI, tO]
    refine BPar.frame hp (wA := True) (wB := ∃ t, t ∈ OB) ?_ ?_ hx k x ?_ h1
    · rw [e2, e1]
      have w1 : WritesE (p.WrB True (∃ t, t ∈ OB)) IB :=
        BPar.tiles_wr (hwI.mono fun _ ht => ⟨1, ht⟩)
      have w2 : WritesE (p.WrB True (∃ t, t ∈ OB)) R :=
        BPar.tiles_wr (hwR.mono fun _ ht => ⟨1, ht⟩)
      have w3 : WritesE (p.WrB True (∃ t, t ∈ OB)) OB :=
        fun t ht x i j hx => Or.inr (Or.inr ⟨⟨t, ht⟩, hwO t ht x i j hx⟩)
      have w4 : WritesE (p.WrB True (∃ t, t ∈ OB)) (tasks (pzpbtrf pk info dv u p.tA)) :=
        BPar.tiles_wr ((pzpbtrf_writes (N := n) hA rfl rfl).mono fun _ ht => ⟨0, ht⟩)
      exact (((BPar.in_wr hp).append w1).append (w4.append w2)).append ((BPar.out_wr hp).append w3)
    · rw [e2]; exact hg.ins
    · intro _ hk r c hr hc hB
      have := h0 hk r c hr hc (inB_pb.mp hB)
      have e := addr_pb (nb := nb) (n := n) (ldab := ldab) (nrhs := nrhs) (lmb := lmb) (ldb := ldb) (inB_pb.mp hB)
      intro hh
      exact this (hh.trans e)

/-- Contents of the tiles of the right-hand sides when the solves start. -/
theorem pb_inB (hp : (pbPar nb u n kd ldab nrhs lmb ldb).OK) (mem : Buf × Nat → 𝕜) {r c : Nat} (hr : r < n)
    (hc : c < nrhs) :
    (pbPar nb u n kd ldab nrhs lmb ldb).tB.el (texec (pzpb2desc (some u) (pbPar nb u n kd ldab nrhs lmb ldb).uA
      (pbPar nb u n kd ldab nrhs lmb ldb).tA ++
      pzge2desc (pbPar nb u n kd ldab nrhs lmb ldb).uB (pbPar nb u n kd ldab nrhs lmb ldb).tB)
      (view (eloc (pbPar nb u n kd ldab nrhs lmb ldb).env) mem)) r c = mem (.usr 1, r + c * ldb) := by
  set p := pbPar nb u n kd ldab nrhs lmb ldb with hpdef
  have hw : Writes (fun t => t.1 = Buf.til 0) (pzpb2desc (α := 𝕜) (some u) p.uA p.tA) := by
    intro t ht x i j hx
    obtain ⟨m, l, e, -⟩ := pzpb2desc_wr (N := n) (BPar.al_tA hp) rfl rfl t ht x i j hx
    rw [e]; rfl
  rw [texec_append]
  refine (copyTasks_el (A := p.tB) (U := p.uB) (V := p.tB) (BPar.al_tB hp) (BPar.al_uB hp) (BPar.al_tB hp)
    (by simp [BPar.uB, BPar.tB, TMat.full]) _ hr hc).trans ?_
  rw [wr_el hw (by simp [BPar.uB, TMat.full])]
  exact BPar.uB_el hp mem r c

/-- The tile band of the selected triangle. -/
theorem lowE_bandT2 {b kt : Nat} {X : Nat → Nat → 𝕜} (hkt : 0 < kt) {r c : Nat} (hcr : c ≤ r) :
    lowE u (bandT2 b kt X) r c = bandE b kt (lowE u X) r c := by
  have h1 := Nat.div_le_div_right (c := b) hcr
  unfold lowE bandT2 bandE
  cases u
  · simp only [reduceCtorEq, if_false]
    by_cases h : r / b < c / b + kt
    · rw [if_pos h, if_pos ⟨by omega, h⟩]
    · rw [if_neg h, if_neg fun h' => h h'.2, star_zero]
  · simp only [if_true]
    by_cases h : r / b < c / b + kt
    · rw [if_pos h, if_pos ⟨h, by omega⟩]
    · rw [if_neg h, if_neg fun h' => h h'.1]

/-- The band matrix as a triangle. -/
theorem trE_ab (mem : Buf × Nat → 𝕜) (r c : Nat) :
    trE u .nonUnit (abE u kd ldab mem) r c = abE u kd ldab mem r c := by
  rw [trE_if]
  unfold abE
  by_cases h : inTri u r c
  · rw [if_pos h]
  · rw [if_neg h, if_neg]
    intro hB
    apply h
    cases u
    · exact hB.1
    · exact hB.1

/-- The triangle that the solves see is the user's band matrix. -/
theorem pb_tr (hp : (pbPar nb u n kd ldab nrhs lmb ldb).OK) {s : Store (Buf × Nat × Nat) 𝕜} {mem : Buf × Nat → 𝕜}
    (hs : ∀ r c, r < n → c < n → bTile (some u) nb kd kd (r / nb) (c / nb) →
      (pbPar nb u n kd ldab nrhs lmb ldb).tA.el s r c = abE u kd ldab mem r c) {r c : Nat} (hr : r < n) (hc : c < n) :
    trE u .nonUnit (bandT2 nb (bkt u (pbPar nb u n kd ldab nrhs lmb ldb).tA.d)
      ((pbPar nb u n kd ldab nrhs lmb ldb).tA.el s)) r c = abE u kd ldab mem r c := by
  rw [← trE_ab, trE_if, trE_if]
  refine if_ctx_congr Iff.rfl (fun h => ?_) (fun _ => rfl)
  have hlow : ∀ i j, j ≤ i → i < n → lowE u (bandT2 nb (bkt u (pbPar nb u n kd ldab nrhs lmb ldb).tA.d)
      ((pbPar nb u n kd ldab nrhs lmb ldb).tA.el s)) i j = lowE u (abE u kd ldab mem) i j := by
    intro i j hij hi
    rw [lowE_bandT2 pb_bkt_pos hij]
    exact pb_low hp hs hij hi
  cases u
  · have := hlow c r h hc
    simp only [lowE, reduceCtorEq, if_false] at this
    exact star_injective this
  · have := hlow r c h hr
    simpa only [lowE, if_true] using this

/-- The two solves together. -/
theorem pbSolve_el {M : Type} {A B : TMat M} {b : Nat} (hdv : IsDiv dv) (hA : A.Al b) (hB : B.Al b) (hab : A.id ≠ B.id)
    (hAm : A.d.m = n) (hm : B.d.m = n) (hn : B.d.n = nrhs) (hkt : 0 < bkt u A.d) (s : Store (M × Nat × Nat) 𝕜)
    (hd : ∀ i, i < n → A.el s i i ≠ 0) {i j : Nat} (hi : i < n) (hj : j < nrhs) :
    ∑ l ∈ range n, (∑ q ∈ range n, opE (poT1 u) (trE u .nonUnit (bandT2 b (bkt u A.d) (A.el s))) i q *
        opE (poT2 u) (trE u .nonUnit (bandT2 b (bkt u A.d) (A.el s))) q l) * B.el (texec (pbSolve dv u A B) s) l j =
      B.el s i j := by
  have hdd : ∀ s' : Store (M × Nat × Nat) 𝕜, A.el s' = A.el s → ∀ i, i < n →
      trE u .nonUnit (A.el s') i i ≠ 0 := by
    intro s' he i hi
    rw [he]; simpa [trE] using hd i hi
  have k1 := pztbsm_el (u := u) (t := poT1 u) (d := .nonUnit) hdv hA hB hab hAm hm hn hkt s (hdd s rfl)
  set s1 := texec (pztbsm dv .left u (poT1 u) .nonUnit 1 A B) s with hs1
  have he : A.el s1 = A.el s := wr_el pztbsm_writes hab s
  have k2 := pztbsm_el (u := u) (t := poT2 u) (d := .nonUnit) hdv hA hB hab hAm hm hn hkt s1 (hdd s1 he)
  rw [he] at k2
  have e : texec (pbSolve dv u A B) s = texec (pztbsm dv .left u (poT2 u) .nonUnit 1 A B) s1 := by
    rw [hs1, pbSolve, texec_append]
  rw [e]
  set X := bandT2 b (bkt u A.d) (A.el s)
  calc _ = ∑ l ∈ range n, ∑ q ∈ range n, opE (poT1 u) (trE u .nonUnit X) i q *
          (opE (poT2 u) (trE u .nonUnit X) q l *
            B.el (texec (pztbsm dv .left u (poT2 u) .nonUnit 1 A B) s1) l j) := by
        refine sum_congr rfl fun l _ => ?_
        rw [sum_mul]
        refine sum_congr rfl fun q _ => ?_
        rw [mul_assoc]
    _ = ∑ q ∈ range n, opE (poT1 u) (trE u .nonUnit X) i q * B.el s1 q j := by
        rw [sum_comm]
        refine sum_congr rfl fun q hq => ?_
        rw [← mul_sum, k2 q j (by simpa using hq) hj]
    _ = _ := k1 i j hi hj

theorem pbSolve_writes {M : Type} {A B : TMat M} : Writes (fun x => x.1 = B.id) (pbSolve dv u A B) :=
  pztbsm_writes.append pztbsm_writes

theorem pbSolve_good (hp : (pbPar nb u n kd ldab nrhs lmb ldb).OK) :
    Good (evalid (pbPar nb u n kd ldab nrhs lmb ldb).env)
      (pbSolve dv u (pbPar nb u n kd ldab nrhs lmb ldb).tA (pbPar nb u n kd ldab nrhs lmb ldb).tB) :=
  (pztbsm_good (Mm := n) (Nn := nrhs) (pb_fits hp) (BPar.fits_tB hp) pb_bkt_pos rfl rfl rfl rfl).append
    (pztbsm_good (Mm := n) (Nn := nrhs) (pb_fits hp) (BPar.fits_tB hp) pb_bkt_pos rfl rfl rfl rfl)

/-- The product of the factor with its conjugate transpose, in either storage. -/
noncomputable def facE (u : Uplo) (n : Nat) (X : Nat → Nat → 𝕜) (i j : Nat) : 𝕜 :=
  if u = .lower then ∑ l ∈ range n, X i l * star (X j l) else ∑ l ∈ range n, star (X l i) * X l j

theorem facE_prod {X : Nat → Nat → 𝕜} (i j : Nat) :
    facE u n X i j = ∑ q ∈ range n, opE (poT1 u) X i q * opE (poT2 u) X q j := by
  unfold facE
  cases u
  · rw [if_neg (by simp)]
    refine sum_congr rfl fun q _ => ?_
    simp only [poT1, poT2, if_true, opE]
  · rw [if_pos rfl]
    refine sum_congr rfl fun q _ => ?_
    simp only [poT1, poT2, reduceCtorEq, if_false, opE]

theorem facE_congr {X Y : Nat → Nat → 𝕜} (h : ∀ r c, r < n → c < n → X r c = Y r c) {i j : Nat} (hi : i < n)
    (hj : j < n) : facE u n X i j = facE u n Y i j := by
  unfold facE
  split
  · refine sum_congr rfl fun q hq => ?_
    rw [mem_range] at hq
    rw [h i q hi hq, h j q hj hq]
  · refine sum_congr rfl fun q hq => ?_
    rw [mem_range] at hq
    rw [h q i hq hi, h q j hq hj]

theorem posRe_of_low {X : Nat → Nat → 𝕜} {i : Nat} (h : PosRe (lowE u X i i)) : PosRe (X i i) := by
  unfold lowE at h
  cases u
  · simp only [reduceCtorEq, if_false] at h
    have h1 := h.1
    rw [star_star] at h1
    refine ⟨h1.symm, ?_⟩
    have h2 := h.2; rw [← h1] at h2; exact h2
  · simpa using h

theorem abE_diag (mem : Buf × Nat → 𝕜) (i : Nat) :
    abE u kd ldab mem i i = mem (.usr 0, bandIx u kd ldab i i) := by
  unfold abE
  rw [if_pos]
  cases u <;> simp [InBand]

end

theorem chol_zero (A : Nat → Nat → 𝕜) : ∃ L, Chol 0 A L :=
  ⟨fun _ _ => 0, fun _ hi => absurd hi (Nat.not_lt_zero _), fun _ _ _ hr => absurd hr (Nat.not_lt_zero _)⟩

/-- **C47, factorization.** If `plasma_zpbtrf` returns `PlasmaSuccess` then, in every execution,
the band array holds a factor with positive real diagonal whose product with its conjugate
transpose is the Hermitian matrix described on entry; memory outside the band is unchanged.
In LAPACK band storage there is no room for entries outside the band, so the factor is banded. -/
theorem C47_pbtrf {nb : Nat} (hnb : 0 < nb) {pk : Uplo → Nat → Tl 𝕜 → Tl 𝕜} {info : Uplo → Nat → Tl 𝕜 → Nat}
    (hpk : IsPotrf pk info) {dv : 𝕜 → 𝕜 → 𝕜} (hdv : IsDiv dv) (u : Uplo) (n kd ldab : Nat) (hl : kd + 1 ≤ ldab)
    (mem mem' : Buf × Nat → 𝕜)
    (hx : GExec (pbPar nb u n kd ldab 0 n n).env (zpbtrf nb pk info dv u n kd ldab) mem mem' 0) :
    (∀ i, i < n → star (mem' (.usr 0, bandIx u kd ldab i i)) = mem' (.usr 0, bandIx u kd ldab i i) ∧
      0 < RCLike.re (mem' (.usr 0, bandIx u kd ldab i i))) ∧
    (∀ i j, i < n → j < n →
      (if u = .lower then ∑ l ∈ range n, abE u kd ldab mem' i l * star (abE u kd ldab mem' j l)
        else ∑ l ∈ range n, star (abE u kd ldab mem' l i) * abE u kd ldab mem' l j) =
        herE u (abE u kd ldab mem) i j) := by
  have hp : (pbPar nb u n kd ldab 0 n n).OK := pbPar_ok hnb hl le_rfl le_rfl
  unfold zpbtrf at hx
  simp only at hx
  split at hx
  · rename_i hq
    subst hq
    exact ⟨fun i hi => absurd hi (Nat.not_lt_zero _), fun i j hi => absurd hi (Nat.not_lt_zero _)⟩
  · rename_i hq
    have e : ompZpbtrf pk info dv u (pbPar nb u n kd ldab 0 n n).tA =
        pzpbtrf pk info dv u (pbPar nb u n kd ldab 0 n n).tA ++ okT [] := by
      unfold ompZpbtrf
      rw [if_neg (by exact hq)]
      exact (List.append_nil _).symm
    rw [e, ← List.append_nil (rawT (pzpb2desc (some u) _ _)), ← List.append_nil (rawT (pzdesc2pb (some u) _ _))] at hx
    obtain ⟨-, hch, -⟩ := (pb_core hpk hdv hp Good.nil Good.nil Good.nil Writes.nil Writes.nil Writes.nil hx).1 rfl
    refine ⟨fun i hi => ?_, fun i j hi hj => ?_⟩
    · have := posRe_of_low (hch.pos i hi)
      rw [abE_diag] at this
      exact this
    · rw [← chol_prod hch hi hj]
      refine (facE_prod (u := u) (X := abE u kd ldab mem') i j).trans ?_
      have : trE u .nonUnit (abE u kd ldab mem') = abE u kd ldab mem' := by
        funext r c; exact trE_ab mem' r c
      rw [this]

/-- **C47, memory touched by the factorization.** Whatever the outcome, `plasma_zpbtrf` writes
only the band of the selected triangle. -/
theorem C47_pbtrf_frame {nb : Nat} (hnb : 0 < nb) {pk : Uplo → Nat → Tl 𝕜 → Tl 𝕜} {info : Uplo → Nat → Tl 𝕜 → Nat}
    (hpk : IsPotrf pk info) {dv : 𝕜 → 𝕜 → 𝕜} (hdv : IsDiv dv) (u : Uplo) (n kd ldab : Nat) (hl : kd + 1 ≤ ldab)
    (mem mem' : Buf × Nat → 𝕜) (st : Int)
    (hx : GExec (pbPar nb u n kd ldab 0 n n).env (zpbtrf nb pk info dv u n kd ldab) mem mem' st) :
    ∀ k x, (k = 0 → ∀ r c, r < n → c < n → InBand u kd r c → x ≠ bandIx u kd ldab r c) →
      mem' (.usr k, x) = mem (.usr k, x) := by
  have hp : (pbPar nb u n kd ldab 0 n n).OK := pbPar_ok hnb hl le_rfl le_rfl
  unfold zpbtrf at hx
  simp only at hx
  split at hx
  · intro k x _
    exact hx.frame _ (by simp [tasks])
  · rename_i hq
    have e : ompZpbtrf pk info dv u (pbPar nb u n kd ldab 0 n n).tA =
        pzpbtrf pk info dv u (pbPar nb u n kd ldab 0 n n).tA ++ okT [] := by
      unfold ompZpbtrf
      rw [if_neg (by exact hq)]
      exact (List.append_nil _).symm
    rw [e, ← List.append_nil (rawT (pzpb2desc (some u) _ _)), ← List.append_nil (rawT (pzdesc2pb (some u) _ _))] at hx
    obtain ⟨-, -, -, hf⟩ := pb_core hpk hdv hp Good.nil Good.nil Good.nil Writes.nil Writes.nil Writes.nil hx
    exact fun k x h => hf k x h (fun ⟨t, ht⟩ => absurd ht List.not_mem_nil)

open scoped ComplexOrder in
/-- **C47, return value of the factorization.** 0 exactly for positive definite matrices.  With
at least one off-diagonal, any other value is the order of the first leading submatrix that is
not positive definite; for diagonal matrices see `C47_diagonal_refuted`. -/
theorem C47_pbtrf_info {nb : Nat} (hnb : 0 < nb) {pk : Uplo → Nat → Tl 𝕜 → Tl 𝕜} {info : Uplo → Nat → Tl 𝕜 → Nat}
    (hpk : IsPotrf pk info) {dv : 𝕜 → 𝕜 → 𝕜} (hdv : IsDiv dv) (u : Uplo) (n kd ldab : Nat) (hl : kd + 1 ≤ ldab)
    (mem mem' : Buf × Nat → 𝕜) (st : Int)
    (hx : GExec (pbPar nb u n kd ldab 0 n n).env (zpbtrf nb pk info dv u n kd ldab) mem mem' st) :
    (st = 0 ↔ (herM u (abE u kd ldab mem) n).PosDef) ∧
    (st ≠ 0 → 1 ≤ kd → ∃ p : Nat, st = p ∧ 1 ≤ p ∧ p ≤ n ∧ ¬ (herM u (abE u kd ldab mem) p).PosDef ∧
      ∀ k, k < p → (herM u (abE u kd ldab mem) k).PosDef) := by
  have hp : (pbPar nb u n kd ldab 0 n n).OK := pbPar_ok hnb hl le_rfl le_rfl
  have hpd : ∀ k, (herM u (abE u kd ldab mem) k).PosDef ↔ ∃ L, Chol k (lowE u (abE u kd ldab mem)) L := by
    intro k; rw [← hermM_lowE]; exact posDef_iff_chol
  unfold zpbtrf at hx
  simp only at hx
  split at hx
  · rename_i hq
    subst hq
    have hst : st = 0 := by
      by_contra h0
      obtain ⟨i, hi, -⟩ := hx.failure hp.wf (by simp [tasks, Good.nil]) CodeOK.nil h0
      simp at hi
    exact ⟨⟨fun _ => (hpd 0).mpr (chol_zero _), fun _ => hst⟩, fun h => absurd hst h⟩
  · rename_i hq
    have e : ompZpbtrf pk info dv u (pbPar nb u n kd ldab 0 n n).tA =
        pzpbtrf pk info dv u (pbPar nb u n kd ldab 0 n n).tA ++ okT [] := by
      unfold ompZpbtrf
      rw [if_neg (by exact hq)]
      exact (List.append_nil _).symm
    rw [e, ← List.append_nil (rawT (pzpb2desc (some u) _ _)), ← List.append_nil (rawT (pzdesc2pb (some u) _ _))] at hx
    obtain ⟨m1, m2, m3, -⟩ := pb_core hpk hdv hp Good.nil Good.nil Good.nil Writes.nil Writes.nil Writes.nil hx
    refine ⟨⟨fun h => (hpd n).mpr ⟨_, (m1 h).2.1⟩, fun h => ?_⟩, fun h0 hk => ?_⟩
    · by_contra h0
      exact m2 h0 ((hpd n).mp h)
    · obtain ⟨q, hq, hqn, ⟨L, hL⟩, hno⟩ := m3 h0 hk
      refine ⟨q + 1, by rw [hq]; push_cast; rfl, by omega, hqn, fun h => hno ((hpd _).mp h), ?_⟩
      intro k hk
      exact (hpd k).mpr ⟨L, hL.mono (by omega)⟩

/-- **C47, solution with a factor.** If the band array holds a banded triangular factor with
non-zero diagonal, every execution of `plasma_zpbtrs` solves with the product of the factor and
its conjugate transpose; nothing but `pB` is changed. -/
theorem C47_pbtrs {nb : Nat} (hnb : 0 < nb) {dv : 𝕜 → 𝕜 → 𝕜} (hdv : IsDiv dv) (u : Uplo) (n kd nrhs ldab ldb : Nat)
    (hl : kd + 1 ≤ ldab) (hl' : n ≤ ldb) (mem mem' : Buf × Nat → 𝕜)
    (hd : ∀ i, i < n → mem (.usr 0, bandIx u kd ldab i i) ≠ 0)
    (hx : Exec (pbPar nb u n kd ldab nrhs n ldb).env (zpbtrs nb dv u n kd nrhs ldab ldb) mem mem') :
    (∀ i j, i < n → j < nrhs →
      ∑ l ∈ range n, (if u = .lower then ∑ q ∈ range n, abE u kd ldab mem i q * star (abE u kd ldab mem l q)
        else ∑ q ∈ range n, star (abE u kd ldab mem q i) * abE u kd ldab mem q l) * mem' (.usr 1, l + j * ldb) =
        mem (.usr 1, i + j * ldb)) ∧
    (∀ k x, (k = 1 → ∀ i j, i < n → j < nrhs → x ≠ i + j * ldb) → mem' (.usr k, x) = mem (.usr k, x)) := by
  have hp : (pbPar nb u n kd ldab nrhs n ldb).OK := pbPar_ok hnb hl le_rfl hl'
  unfold zpbtrs at hx
  simp only at hx
  split at hx
  · rename_i hq
    rw [hx.nil]
    exact ⟨fun i j hi hj => by omega, fun _ _ _ => rfl⟩
  · rename_i hq
    set p := pbPar nb u n kd ldab nrhs n ldb with hpdef
    have hgin : Good (evalid p.env) (pzpb2desc (α := 𝕜) (some u) p.uA p.tA) := BPar.in_good hp
    have hgS : Good (evalid p.env) (ompZpbtrs dv u p.tA p.tB) := by
      unfold ompZpbtrs
      split
      · exact Good.nil
      · exact pbSolve_good hp
    have hwS : Writes (fun t => t.1 = Buf.til 1) (ompZpbtrs dv u p.tA p.tB) := by
      unfold ompZpbtrs
      split
      · exact Writes.nil
      · exact pbSolve_writes
    have hg := ((hgin.append (BPar.geIn_good hp)).append hgS).append (BPar.geOut_good (α := 𝕜) hp)
    have hwI : Writes (fun t => t.1 = Buf.til 1) (pzge2desc (α := 𝕜) p.uB p.tB) := copyTasks_writes (A := p.tB)
    refine ⟨fun i j hi hj => ?_, ?_⟩
    · set s := texec (pzpb2desc (some u) p.uA p.tA ++ pzge2desc p.uB p.tB) (view (eloc p.env) mem) with hs
      have hin : ∀ r c, r < n → c < n → bTile (some u) nb kd kd (r / nb) (c / nb) →
        p.tA.el s r c = abE u kd ldab mem r c := pb_in hp hwI mem
      have homp : ompZpbtrs dv u p.tA p.tB = pbSolve dv u p.tA p.tB := by
        unfold ompZpbtrs; rw [if_neg]
        show ¬ (n = 0 ∨ nrhs = 0); omega
      have hO : ∀ r, r < n → mem' (.usr 1, r + j * ldb) = p.tB.el (texec (pbSolve dv u p.tA p.tB) s) r j := by
        intro r hr
        refine (BPar.exec_uB hp hg.toC hx hr hj).trans ?_
        rw [texec_append]
        refine (copyTasks_el (A := p.tB) (U := p.tB) (V := p.uB) (BPar.al_tB hp) (BPar.al_tB hp) (BPar.al_uB hp)
          (by simp [BPar.uB, BPar.tB, TMat.full]) _ hr hj).trans ?_
        rw [texec_append, homp]
      have hdiag : ∀ r, r < n → p.tA.el s r r ≠ 0 := by
        intro r hr
        have hB : InBand u kd r r := by cases u <;> simp [InBand]
        rw [hin r r hr hr (BPar.bTile_of_inB hnb (inB_pb.mpr hB)), abE_diag]
        exact hd r hr
      have key := pbSolve_el (u := u) (dv := dv) (n := n) (nrhs := nrhs) hdv (BPar.al_tA hp) (BPar.al_tB hp)
        (by simp [BPar.tA, BPar.tB, bandT]) rfl rfl rfl pb_bkt_pos s hdiag hi hj
      rw [hs, pb_inB hp mem hi hj, ← hs] at key
      rw [← key]
      refine sum_congr rfl fun l hl => ?_
      rw [mem_range] at hl
      rw [hO l hl]
      congr 1
      rw [← facE_prod]
      exact facE_congr (u := u) (fun r c hr hc => (pb_tr hp hin hr hc).symm) hi hl
    · intro k x hk
      refine BPar_frame hp (wA := False) (wB := True) ?_ hg hx k x (fun h => h.elim) (fun _ => hk)
      exact (((BPar.in_wr hp).append BPar.geIn_wr).append
        (BPar.tiles_wr (hwS.mono fun _ ht => ⟨1, ht⟩))).append BPar.geOut_wr

open scoped ComplexOrder in
/-- **C47, driver.** If `plasma_zpbsv` returns 0 then `A X = B` for the Hermitian band matrix
described on entry, and the band array holds its factor; the returned value is 0 exactly for
positive definite matrices (when there is something to solve), and with at least one
off-diagonal it is otherwise the order of the first leading submatrix that is not positive
definite.  Memory outside the band and outside `pB` is unchanged. -/
theorem C47_pbsv {nb : Nat} (hnb : 0 < nb) {pk : Uplo → Nat → Tl 𝕜 → Tl 𝕜} {info : Uplo → Nat → Tl 𝕜 → Nat}
    (hpk : IsPotrf pk info) {dv : 𝕜 → 𝕜 → 𝕜} (hdv : IsDiv dv) (u : Uplo) (n kd nrhs ldab ldb : Nat)
    (hl : kd + 1 ≤ ldab) (hl' : n ≤ ldb) (hr : 0 < nrhs) (mem mem' : Buf × Nat → 𝕜) (st : Int)
    (hx : GExec (pbPar nb u n kd ldab nrhs ldb ldb).env (zpbsv nb pk info dv u n kd nrhs ldab ldb) mem mem' st) :
    (st = 0 → (∀ i j, i < n → j < nrhs →
      ∑ l ∈ range n, herE u (abE u kd ldab mem) i l * mem' (.usr 1, l + j * ldb) = mem (.usr 1, i + j * ldb)) ∧
      ∀ i j, i < n → j < n →
      (if u = .lower then ∑ l ∈ range n, abE u kd ldab mem' i l * star (abE u kd ldab mem' j l)
        else ∑ l ∈ range n, star (abE u kd ldab mem' l i) * abE u kd ldab mem' l j) =
        herE u (abE u kd ldab mem) i j) ∧
    (st = 0 ↔ (herM u (abE u kd ldab mem) n).PosDef) ∧
    (st ≠ 0 → 1 ≤ kd → ∃ p : Nat, st = p ∧ 1 ≤ p ∧ p ≤ n ∧ ¬ (herM u (abE u kd ldab mem) p).PosDef ∧
      ∀ k, k < p → (herM u (abE u kd ldab mem) k).PosDef) ∧
    (∀ k x, (k = 0 → ∀ r c, r < n → c < n → InBand u kd r c → x ≠ bandIx u kd ldab r c) →
      (k = 1 → ∀ i j, i < n → j < nrhs → x ≠ i + j * ldb) → mem' (.usr k, x) = mem (.usr k, x)) := by
  have hp : (pbPar nb u n kd ldab nrhs ldb ldb).OK := pbPar_ok hnb hl hl' hl'
  have hpd : ∀ k, (herM u (abE u kd ldab mem) k).PosDef ↔ ∃ L, Chol k (lowE u (abE u kd ldab mem)) L := by
    intro k; rw [← hermM_lowE]; exact posDef_iff_chol
  unfold zpbsv at hx
  simp only at hx
  split at hx
  · rename_i hq
    have hn0 : n = 0 := by omega
    subst hn0
    have hst : st = 0 := by
      by_contra h0
      obtain ⟨i, hi, -⟩ := hx.failure hp.wf (by simp [tasks, Good.nil]) CodeOK.nil h0
      simp at hi
    exact ⟨fun _ => ⟨fun i j hi => absurd hi (Nat.not_lt_zero _), fun i j hi => absurd hi (Nat.not_lt_zero _)⟩,
      ⟨fun _ => (hpd 0).mpr (chol_zero _), fun _ => hst⟩, fun h => absurd hst h,
      fun k x _ _ => hx.frame _ (by simp [tasks])⟩
  · rename_i hq
    set p := pbPar nb u n kd ldab nrhs ldb ldb with hpdef
    have homp : ompZpbsv pk info dv u p.tA p.tB = pzpbtrf pk info dv u p.tA ++ okT (pbSolve dv u p.tA p.tB) := by
      unfold ompZpbsv; rw [if_neg]
      show ¬ (n = 0 ∨ nrhs = 0); omega
    rw [homp] at hx
    have hgin : Good (evalid p.env) (pzpb2desc (α := 𝕜) (some u) p.uA p.tA) := BPar.in_good hp
    have hgout : Good (evalid p.env) (pzdesc2pb (α := 𝕜) (some u) p.tA p.uA) := BPar.out_good hp
    have hgP : Good (evalid p.env) (tasks (pzpbtrf pk info dv u p.tA)) :=
      pzpbtrf_good (N := n) hpk (pb_fits hp) pb_bkt_pos rfl rfl
    have hwI : Writes (fun t => t.1 = Buf.til 1) (pzge2desc (α := 𝕜) p.uB p.tB) := copyTasks_writes (A := p.tB)
    have hwO : Writes (fun t => t.1 = Buf.usr 1) (pzdesc2ge (α := 𝕜) p.tB p.uB) := copyTasks_writes (A := p.tB)
    have hwR : Writes (fun t => t.1 = Buf.til 1) (pbSolve dv u p.tA p.tB) := pbSolve_writes
    obtain ⟨m1, m2, m3, hf⟩ := pb_core hpk hdv hp (BPar.geIn_good hp) (pbSolve_good hp) (BPar.geOut_good hp)
      hwI hwR hwO hx
    refine ⟨fun h0 => ?_, ⟨fun h => (hpd n).mpr ⟨_, (m1 h).2.1⟩, fun h => ?_⟩, fun h0 hk => ?_,
      fun k x h0 h1 => hf k x h0 (fun _ => h1)⟩
    · obtain ⟨hx', hch, hlo⟩ := m1 h0
      have hfac : ∀ i j, i < n → j < n → facE u n (abE u kd ldab mem') i j = herE u (abE u kd ldab mem) i j := by
        intro i j hi hj
        rw [← chol_prod hch hi hj]
        refine (facE_prod (u := u) (X := abE u kd ldab mem') i j).trans ?_
        have : trE u .nonUnit (abE u kd ldab mem') = abE u kd ldab mem' := by
          funext r c; exact trE_ab mem' r c
        rw [this]
      refine ⟨fun i j hi hj => ?_, hfac⟩
      set s := texec (pzpb2desc (some u) p.uA p.tA ++ pzge2desc p.uB p.tB) (view (eloc p.env) mem) with hs
      set F := texec (tasks (pzpbtrf pk info dv u p.tA)) s with hF
      have hBe : p.tB.el F i j = mem (.usr 1, i + j * ldb) := by
        rw [hF, wr_el (pzpbtrf_writes (N := n) (BPar.al_tA hp) rfl rfl) (by simp [BPar.tA, BPar.tB, bandT]), hs]
        exact pb_inB hp mem hi hj
      have hg := ((hgin.append (BPar.geIn_good hp)).append (hgP.append (pbSolve_good (dv := dv) hp))).append
        (hgout.append (BPar.geOut_good (α := 𝕜) hp))
      have hwu : Writes (fun t => t.1 = Buf.usr 0) (pzdesc2pb (α := 𝕜) (some u) p.tA p.uA) := by
        intro t ht x i j hx
        obtain ⟨m, l, e, -⟩ := pzdesc2pb_wr (N := n) (BPar.al_tA hp) rfl rfl t ht x i j hx
        rw [e]; rfl
      have hO : ∀ r, r < n → mem' (.usr 1, r + j * ldb) = p.tB.el (texec (pbSolve dv u p.tA p.tB) F) r j := by
        intro r hr
        refine (BPar.exec_uB hp hg.toC hx' hr hj).trans ?_
        rw [texec_append, texec_append]
        refine (copyTasks_el (A := p.tB) (U := p.tB) (V := p.uB) (BPar.al_tB hp) (BPar.al_tB hp) (BPar.al_uB hp)
          (by simp [BPar.uB, BPar.tB, TMat.full]) _ hr hj).trans ?_
        rw [wr_el hwu (by simp [BPar.tB]), texec_append, texec_append (tasks _)]
      have hch2 : Chol n (lowE u (abE u kd ldab mem)) (lowE u (bandT2 nb (bkt u p.tA.d) (p.tA.el F))) :=
        hch.congr (fun _ _ _ _ => rfl) (fun r c hc hr => by rw [lowE_bandT2 pb_bkt_pos hc]; exact hlo r c hc hr)
      have hdiag : ∀ r, r < n → p.tA.el F r r ≠ 0 := by
        intro r hr h0
        have := (posRe_of_low (hch2.pos r hr)).2
        unfold bandT2 at this
        rw [h0] at this
        simp at this
      have key := pbSolve_el (u := u) (dv := dv) (n := n) (nrhs := nrhs) hdv (BPar.al_tA hp) (BPar.al_tB hp)
        (by simp [BPar.tA, BPar.tB, bandT]) rfl rfl rfl pb_bkt_pos F hdiag hi hj
      rw [hBe] at key
      rw [← key]
      refine sum_congr rfl fun l hl => ?_
      rw [mem_range] at hl
      rw [hO l hl]
      congr 1
      exact (chol_prod hch2 hi hl).symm
    · by_contra h0
      exact m2 h0 ((hpd n).mp h)
    · obtain ⟨q, hq, hqn, ⟨L, hL⟩, hno⟩ := m3 h0 hk
      refine ⟨q + 1, by rw [hq]; push_cast; rfl, by omega, hqn, fun h => hno ((hpd _).mp h), ?_⟩
      intro k hk
      exact (hpd k).mpr ⟨L, hL.mono (by omega)⟩

/-! ### Diagonal matrices: the returned value depends on the schedule -/

omit [DecidableEq 𝕜] in
theorem chol_diag_pos {n : Nat} {A L : Nat → Nat → 𝕜} (h : Chol n A L) {r : Nat} (hr : r < n) :
    0 < RCLike.re (A r r) := by
  have h1 := h.eq r r le_rfl hr
  have h2 : RCLike.re (hd A r r) = RCLike.re (A r r) := by simp [hd, reP]
  rw [← h2, ← h1, sum_range_succ, map_add, map_sum]
  have h3 : ∀ x : 𝕜, RCLike.re (x * star x) = RCLike.normSq x := by
    intro x
    rw [RCLike.star_def, RCLike.mul_conj, RCLike.normSq_eq_def']
    norm_cast
  refine add_pos_of_nonneg_of_pos (sum_nonneg fun l _ => ?_) ?_
  · rw [h3]; exact RCLike.normSq_nonneg _
  · rw [h3]
    have := RCLike.normSq_nonneg (L r r)
    rcases this.lt_or_eq with h4 | h4
    · exact h4
    · exact absurd (RCLike.normSq_eq_zero.mp h4.symm) (h.pos r hr).ne

omit [DecidableEq 𝕜] in
theorem chol_of_diag {n : Nat} {A : Nat → Nat → 𝕜} (hz : ∀ r c, c < r → r < n → A r c = 0)
    (hp : ∀ r, r < n → 0 < RCLike.re (A r r)) : ∃ L, Chol n A L := by
  refine ⟨fun r c => if r = c then ((Real.sqrt (RCLike.re (A r r)) : ℝ) : 𝕜) else 0, ?_, ?_⟩
  · intro i hi
    rw [if_pos rfl]
    refine ⟨by simp, ?_⟩
    rw [RCLike.ofReal_re]
    exact Real.sqrt_pos.mpr (hp i hi)
  · intro r c hc hr
    rw [sum_range_succ, sum_eq_zero, zero_add]
    · by_cases h : r = c
      · subst h
        simp only [if_true, hd, reP]
        rw [RCLike.star_def, RCLike.conj_ofReal, ← RCLike.ofReal_mul, Real.mul_self_sqrt (hp r hr).le]
      · rw [if_neg h, zero_mul, hd, if_neg h, hz r c (by omega) hr]
    · intro l hl
      rw [mem_range] at hl
      rw [if_neg (show c ≠ l by omega)]
      simp

/-- **C47, refutation for diagonal matrices.** With `kd = 0` the tasks factoring different
diagonal tiles are unordered.  If entry `i` is the first non-positive entry of its tile, some
execution of `plasma_zpbtrf` returns `i + 1`, whatever the tiles before contain. -/
theorem C47_diagonal_any {nb : Nat} (hnb : 0 < nb) {pk : Uplo → Nat → Tl 𝕜 → Tl 𝕜} {info : Uplo → Nat → Tl 𝕜 → Nat}
    (hpk : IsPotrf pk info) (dv : 𝕜 → 𝕜 → 𝕜) (u : Uplo) (n ldab : Nat) (hl : 1 ≤ ldab)
    (mem : Buf × Nat → 𝕜) (i : Nat) (hi : i < n) (hbad : RCLike.re (mem (.usr 0, bandIx u 0 ldab i i)) ≤ 0)
    (hgood : ∀ j, j < i → j / nb = i / nb → 0 < RCLike.re (mem (.usr 0, bandIx u 0 ldab j j))) :
    ∃ mem', GExec (pbPar nb u n 0 ldab 0 n n).env (zpbtrf nb pk info dv u n 0 ldab) mem mem' (i + 1) := by
  have hp : (pbPar nb u n 0 ldab 0 n n).OK := pbPar_ok hnb hl le_rfl le_rfl
  set p := pbPar nb u n 0 ldab 0 n n with hpdef
  have hA : p.tA.Al nb := BPar.al_tA hp
  have hkt : bkt u p.tA.d = 1 := by
    rw [hpdef, pb_bkt, Nat.zero_add, Nat.div_eq_of_lt (by omega)]
  set k := i / nb with hk
  have hkK : k < ceilDiv n nb := by
    rw [lt_ceilDiv hnb]
    have := divmod i nb
    rw [← hk] at this
    omega
  have hpt : ∀ j, pt u p.tA (j, j) = p.tA.at' j j := by intro j; unfold pt; split <;> rfl
  set t : Nat → GTTask (Buf × Nat × Nat) 𝕜 := fun j => corePotrf pk info u (tdim n nb j) (p.tA.at' j j) (nb * j) with ht
  have hprog : pzpbtrf pk info dv u p.tA = (List.range (ceilDiv n nb)).map t := by
    rw [pzpbtrf_eq (N := n) hA rfl rfl, List.map_eq_flatMap]
    congr 1
    funext j
    have : pbIdx (ceilDiv n nb) (bkt u p.tA.d) j = [] := by
      rw [List.eq_nil_iff_forall_not_mem]
      intro q hq
      rw [mem_pbIdx, hkt] at hq
      omega
    unfold pbStep
    rw [this, hpt]
    rfl
  obtain ⟨l1, l2, hsplit⟩ := List.append_of_mem (List.mem_range.mpr hkK)
  have hnd : k ∉ l1 := by
    have := List.nodup_range (n := ceilDiv n nb)
    rw [hsplit] at this
    exact fun h => (List.nodup_append.mp this).2.2 k h k List.mem_cons_self rfl
  have hl1 : ∀ j ∈ l1, j < ceilDiv n nb := by
    intro j hj
    have : j ∈ List.range (ceilDiv n nb) := by rw [hsplit]; exact List.mem_append_left _ hj
    exact List.mem_range.mp this
  have homp : ompZpbtrf pk info dv u p.tA = l1.map t ++ t k :: l2.map t := by
    unfold ompZpbtrf
    rw [if_neg (show ¬ p.tA.d.m = 0 from (show ¬ n = 0 by omega)), hprog, hsplit, List.map_append, List.map_cons]
  set I := pzpb2desc (α := 𝕜) (some u) p.uA p.tA with hI
  set s := texec I (view (eloc p.env) mem) with hs
  have hin : ∀ r c, r < n → c < n → bTile (some u) nb 0 0 (r / nb) (c / nb) →
      p.tA.el s r c = abE u 0 ldab mem r c := by
    have := pb_in (nb := nb) (u := u) (n := n) (kd := 0) (ldab := ldab) (nrhs := 0) (lmb := n) (ldb := n) hp
      (IB := []) Writes.nil mem
    rwa [List.append_nil] at this
  have hT : ∀ x y, x < tdim n nb k → y < tdim n nb k → s (p.tA.at' k k) x y =
      if x = y then mem (.usr 0, bandIx u 0 ldab (k * nb + x) (k * nb + x)) else 0 := by
    intro x y hx hy
    rw [tdim_row] at hx hy
    rw [← hA.el_tile s (m := k) (n := k) hx.1 hy.1, hin _ _ hx.2 hy.2 (by
      rw [div_of_tile hx.1, div_of_tile hy.1, bTile_iff hnb (n := n) (ldab := ldab) (nrhs := 0) (lmb := n) (ldb := n),
        ← hpdef, hkt]
      unfold inBandT; split <;> omega)]
    unfold abE
    by_cases hxy : x = y
    · subst hxy
      rw [if_pos rfl, if_pos (by cases u <;> simp [InBand])]
    · rw [if_neg hxy, if_neg (by cases u <;> simp [InBand] <;> omega)]
  have hdm := divmod i nb
  rw [← hk] at hdm
  have hmod : i % nb < tdim n nb k := mod_lt_tdim hnb hi
  have hlow : ∀ x y, y ≤ x → x < tdim n nb k → lowE u (s (p.tA.at' k k)) x y =
      if x = y then lowE u (s (p.tA.at' k k)) x x else 0 := by
    intro x y hxy hx
    by_cases h : x = y
    · subst h; rw [if_pos rfl]
    · rw [if_neg h]
      unfold lowE
      rw [hT x y hx (by omega), hT y x (by omega) hx, if_neg h, if_neg (Ne.symm h)]
      simp
  have hdiag : ∀ x, x < tdim n nb k → RCLike.re (lowE u (s (p.tA.at' k k)) x x) =
      RCLike.re (mem (.usr 0, bandIx u 0 ldab (k * nb + x) (k * nb + x))) := by
    intro x hx
    unfold lowE
    rw [hT x x hx hx, if_pos rfl]
    split <;> simp
  have hinfo : info u (tdim n nb k) (s (p.tA.at' k k)) = i % nb + 1 := by
    have hneg : ∀ q, i % nb < q → q ≤ tdim n nb k → ¬ ∃ L, Chol q (lowE u (s (p.tA.at' k k))) L := by
      rintro q hq hq2 ⟨L, hL⟩
      have := chol_diag_pos hL hq
      rw [hdiag _ hmod, hdm] at this
      exact absurd this (not_lt.mpr hbad)
    have hposq : ∀ q, q ≤ i % nb → ∃ L, Chol q (lowE u (s (p.tA.at' k k))) L := by
      intro q hq
      apply chol_of_diag
      · intro r c hc hr
        rw [hlow r c (by omega) (by omega), if_neg (by omega)]
      · intro r hr
        rw [hdiag r (by omega)]
        refine hgood _ (by omega) ?_
        have : r < nb := by have := Nat.mod_lt i hnb; omega
        rw [div_of_tile this]
    rcases Nat.eq_zero_or_pos (info u (tdim n nb k) (s (p.tA.at' k k))) with h0 | h0
    · exact absurd ⟨_, hpk.ok _ _ _ h0⟩ (hneg _ hmod le_rfl)
    · obtain ⟨q, hq⟩ := Nat.exists_eq_succ_of_ne_zero (by omega : info u (tdim n nb k) (s (p.tA.at' k k)) ≠ 0)
      obtain ⟨h1, ⟨L, hL⟩, h3⟩ := hpk.bad _ _ _ _ hq
      have : q = i % nb := by
        by_contra hne
        rcases Nat.lt_or_gt_of_ne hne with h | h
        · exact h3 (hposq (q + 1) h)
        · exact hneg q h (by omega) ⟨L, hL⟩
      rw [hq, this]
  have hcode : (t k).code s = (i : Int) + 1 := by
    simp only [ht, corePotrf]
    rw [if_pos (by rw [hinfo]; omega), hinfo]
    have : nb * k = k * nb := Nat.mul_comm _ _
    rw [this]
    push_cast
    have h5 : ((k * nb : Nat) : Int) + ((i % nb : Nat) : Int) = i := by exact_mod_cast hdm
    push_cast at h5
    linarith
  have hgP : Good (evalid p.env) (tasks (pzpbtrf pk info dv u p.tA)) :=
    pzpbtrf_good (N := n) hpk (pb_fits hp) pb_bkt_pos rfl rfl
  have hgin : Good (evalid p.env) I := BPar.in_good hp
  have hgout : Good (evalid p.env) (pzdesc2pb (α := 𝕜) (some u) p.tA p.uA) := BPar.out_good hp
  have e : zpbtrf nb pk info dv u n 0 ldab =
      rawT I ++ (l1.map t ++ t k :: (l2.map t ++ rawT (pzdesc2pb (some u) p.tA p.uA))) := by
    unfold zpbtrf
    simp only
    rw [if_neg (show ¬ n = 0 by omega), ← hpdef, homp]
    simp [hI]
  have hcon := pzpbtrf_codeOK (N := n) (u := u) (dv := dv) hpk hA rfl rfl
  rw [e]
  have := GExec.jump (env := p.env) (I := rawT I) (Q := l1.map t) (R := l2.map t ++ rawT (pzdesc2pb (some u) p.tA p.uA))
    (t := t k) hp.wf (by rw [tasks_rawT]; exact hgin) (codeOK_raw _) (safe_raw _) ?_ ?_ ?_ ?_ mem
    (by rw [tasks_rawT, ← hs, hcode]; omega)
  · rwa [tasks_rawT, ← hs, hcode] at this
  iterate 2
    have e2 : tasks (rawT I ++ (l1.map t ++ t k :: (l2.map t ++ rawT (pzdesc2pb (some u) p.tA p.uA)))) =
        I ++ tasks (pzpbtrf pk info dv u p.tA) ++ pzdesc2pb (some u) p.tA p.uA := by
      rw [hprog, hsplit]
      have tc : ∀ (a : GTTask (Buf × Nat × Nat) 𝕜) l, tasks (a :: l) = a.task :: tasks l := fun _ _ => rfl
      simp only [tasks_append, tasks_rawT, List.map_append, List.map_cons, List.append_assoc, tc, List.cons_append]
    rw [e2]
    first
      | exact ((hgin.append hgP).append hgout).loc
      | exact ((hgin.append hgP).append hgout).ins
  · have hm : t k ∈ pzpbtrf pk info dv u p.tA := by
      rw [hprog]; exact List.mem_map.mpr ⟨k, List.mem_range.mpr hkK, rfl⟩
    constructor
    · intro x hx; rw [List.mem_singleton] at hx; subst hx; exact hcon.loc _ hm
    · intro x hx; rw [List.mem_singleton] at hx; subst hx; exact hcon.unguarded _ hm
  · intro x hx
    obtain ⟨j, hj, rfl⟩ := List.mem_map.mp hx
    refine ⟨by simp [ht, corePotrf, op0], ?_⟩
    intro d hd d' hd'
    have e1 : d.1 = p.tA.at' j j := by
      simp [ht, corePotrf, op0] at hd
      rw [hd]
    have e2 : d'.1 = p.tA.at' k k := by
      simp [ht, corePotrf, op0] at hd'
      rw [hd']
    rw [e1, e2]
    have hv : ∀ j, j < ceilDiv n nb → evalid p.env (p.tA.at' j j) 0 0 := by
      intro j hj
      rw [lt_ceilDiv hnb] at hj
      have h0 : 0 < tdim n nb j := by unfold tdim; omega
      refine (pb_fits hp).validOn ?_ h0 h0
      rw [← hpdef, hkt]
      unfold inBandT; split <;> omega
    intro he
    obtain ⟨h1, -, -⟩ := env_inj hp.wf _ _ _ _ _ _ (hv j (hl1 j hj)) (hv k hkK) he
    have := (TMat.at'_inj.mp h1).1
    subst this
    exact hnd hj

/-- **C47, refutation.** For the zero matrix of order 2 with `kd = 0` and tiles of size 1 both
1 and 2 are returned by some execution: the value is not determined by the input. -/
theorem C47_diagonal_refuted {pk : Uplo → Nat → Tl ℝ → Tl ℝ} {info : Uplo → Nat → Tl ℝ → Nat}
    (hpk : IsPotrf pk info) (dv : ℝ → ℝ → ℝ) (u : Uplo) :
    (∃ mem', GExec (pbPar 1 u 2 0 1 0 2 2).env (zpbtrf 1 pk info dv u 2 0 1) (fun _ => 0) mem' 1) ∧
    (∃ mem', GExec (pbPar 1 u 2 0 1 0 2 2).env (zpbtrf 1 pk info dv u 2 0 1) (fun _ => 0) mem' 2) := by
  constructor
  · exact C47_diagonal_any (nb := 1) (by decide) hpk dv u 2 1 (by decide) (fun _ => 0) 0 (by decide) (by simp)
      (fun j hj => absurd hj (Nat.not_lt_zero _))
  · exact C47_diagonal_any (nb := 1) (by decide) hpk dv u 2 1 (by decide) (fun _ => 0) 1 (by decide) (by simp)
      (fun j hj h => by simp at h; omega)

/-- **C47, tiles touched.** Every task of `plasma_zpbtrf` reads and writes only tiles `(m, l)`
of the selected triangle whose distance from the diagonal is less than the number of tiles of
a column of the band, inside the allocation of `nb * (1 + ceil(kd/nb))` rows and `n` columns. -/
theorem C47_tiles {nb : Nat} (hnb : 0 < nb) {pk : Uplo → Nat → Tl 𝕜 → Tl 𝕜} {info : Uplo → Nat → Tl 𝕜 → Nat}
    (hpk : IsPotrf pk info) (dv : 𝕜 → 𝕜 → 𝕜) (u : Uplo) (n kd ldab : Nat) (hl : kd + 1 ≤ ldab)
    (t : TTask (Buf × Nat × Nat) 𝕜) (ht : t ∈ tasks (zpbtrf nb pk info dv u n kd ldab)) (m l i j : Nat)
    (hrw : t.rd (.til 0, m, l) i j ∨ t.wr (.til 0, m, l) i j) :
    (if u = .lower then l ≤ m ∧ m * nb < l * nb + nb + kd else m ≤ l ∧ l * nb < m * nb + nb + kd) ∧
    i < tdim n nb m ∧ j < tdim n nb l ∧
    ((pbPar nb u n kd ldab 0 n n).env (.til 0)).off m l i j < nb * (1 + (kd + nb - 1) / nb) * n := by
  have hp : (pbPar nb u n kd ldab 0 n n).OK := pbPar_ok hnb hl le_rfl le_rfl
  have hgP : Good (evalid (pbPar nb u n kd ldab 0 n n).env) (tasks (ompZpbtrf pk info dv u (pbPar nb u n kd ldab 0 n n).tA)) := by
    unfold ompZpbtrf
    split
    · exact Good.nil
    · exact pzpbtrf_good (N := n) hpk (pb_fits hp) pb_bkt_pos rfl rfl
  have hv : evalid (pbPar nb u n kd ldab 0 n n).env (.til 0, m, l) i j := by
    unfold zpbtrf at ht
    simp only at ht
    split at ht
    · simp [tasks] at ht
    · rw [tasks_append, tasks_append, tasks_rawT, tasks_rawT] at ht
      exact (((BPar.in_good hp).append hgP).append (BPar.out_good hp)).ins t ht _ _ _ hrw
  have hoff := MatEnv.off_lt (hp.wf (.til 0)) hv.1 hv.2
  obtain ⟨h1, h2⟩ := hv
  change TileOK nb nb n n m l i j at h1
  rw [tileOK_iff] at h1
  have hlm : bLmt (some u) nb kd kd = 1 + (kd + nb - 1) / nb := by cases u <;> rfl
  change l ≤ (bKut (some u) nb kd kd - 1) + m ∧ (bKut (some u) nb kd kd - 1) + m - l < bLmt (some u) nb kd kd at h2
  have hib : inBandT u (bkt u (pbPar nb u n kd ldab 0 n n).tA.d) m l := by
    rw [pb_bkt]
    rw [hlm] at h2
    unfold inBandT
    cases u <;> simp only [bKut] at h2 <;> simp only [reduceCtorEq, if_false, if_true] <;>
      generalize (kd + nb - 1) / nb = Z at * <;> omega
  refine ⟨?_, ?_, ?_, ?_⟩
  · have := (bTile_iff hnb).mpr hib
    cases u
    · rw [if_neg (by simp)]; exact this
    · rw [if_pos rfl]; exact this
  · rw [tdim_row]; exact ⟨h1.1, h1.2.1⟩
  · rw [tdim_row]; exact ⟨h1.2.2.1, h1.2.2.2⟩
  · refine lt_of_lt_of_eq hoff ?_
    show bLmt (some u) nb kd kd * nb * n = _
    rw [hlm]
    ring

/-! ### Cases meeting the hypotheses -/

theorem zpbtrf_exists {nb : Nat} (hnb : 0 < nb) {pk : Uplo → Nat → Tl 𝕜 → Tl 𝕜} {info : Uplo → Nat → Tl 𝕜 → Nat}
    (hpk : IsPotrf pk info) (dv : 𝕜 → 𝕜 → 𝕜) (u : Uplo) (n kd ldab : Nat) (hl : kd + 1 ≤ ldab)
    (mem : Buf × Nat → 𝕜) :
    ∃ mem' st, GExec (pbPar nb u n kd ldab 0 n n).env (zpbtrf nb pk info dv u n kd ldab) mem mem' st := by
  have hp : (pbPar nb u n kd ldab 0 n n).OK := pbPar_ok hnb hl le_rfl le_rfl
  refine GExec.exists hp.wf ?_ mem
  unfold zpbtrf
  simp only
  split
  · simp [tasks, Good.nil]
  · rw [tasks_append, tasks_append, tasks_rawT, tasks_rawT]
    refine Good.append (Good.append (BPar.in_good hp) ?_) (BPar.out_good hp)
    unfold ompZpbtrf
    split
    · simp [tasks, Good.nil]
    · exact pzpbtrf_good (N := n) hpk (pb_fits hp) pb_bkt_pos rfl rfl

theorem zpbsv_exists {nb : Nat} (hnb : 0 < nb) {pk : Uplo → Nat → Tl 𝕜 → Tl 𝕜} {info : Uplo → Nat → Tl 𝕜 → Nat}
    (hpk : IsPotrf pk info) (dv : 𝕜 → 𝕜 → 𝕜) (u : Uplo) (n kd nrhs ldab ldb : Nat) (hl : kd + 1 ≤ ldab)
    (hl' : n ≤ ldb) (mem : Buf × Nat → 𝕜) :
    ∃ mem' st, GExec (pbPar nb u n kd ldab nrhs ldb ldb).env (zpbsv nb pk info dv u n kd nrhs ldab ldb) mem mem' st := by
  have hp : (pbPar nb u n kd ldab nrhs ldb ldb).OK := pbPar_ok hnb hl hl' hl'
  refine GExec.exists hp.wf ?_ mem
  unfold zpbsv
  simp only
  split
  · simp [tasks, Good.nil]
  · rw [tasks_append, tasks_append, tasks_append, tasks_append, tasks_okT, tasks_rawT, tasks_okT, tasks_rawT]
    refine Good.append (Good.append ((BPar.in_good hp).append (BPar.geIn_good hp)) ?_)
      ((BPar.out_good hp).append (BPar.geOut_good hp))
    unfold ompZpbsv
    split
    · simp [tasks, Good.nil]
    · rw [tasks_append, tasks_okT]
      exact (pzpbtrf_good (N := n) hpk (pb_fits hp) pb_bkt_pos rfl rfl).append (pbSolve_good hp)

/-- Tridiagonal matrix of order 3 with rows `4 2 0`, `2 5 2`, `0 2 5`, lower band storage with
leading dimension 3 (the third row of the array is not used); ones elsewhere. -/
noncomputable def pbEx : Buf × Nat → ℝ
  | (.usr 0, 0) => 4
  | (.usr 0, 1) => 2
  | (.usr 0, 3) => 5
  | (.usr 0, 4) => 2
  | (.usr 0, 6) => 5
  | _ => 1

theorem pbEx_posDef : open scoped ComplexOrder in (herM .lower (abE .lower 1 3 pbEx) 3).PosDef := by
  rw [← hermM_lowE]
  refine Chol.posDef (L := fun i j => if i = j then 2 else if i = j + 1 then 1 else 0) ⟨?_, ?_⟩
  · intro i hi
    exact ⟨by simp, by simp⟩
  · intro r c hc hr
    interval_cases r <;> interval_cases c <;>
      simp [Finset.sum_range_succ, hd, lowE, abE, InBand, bandIx, pbEx, reP] <;> norm_num

/-- Tiles of size 2 and one off-diagonal: an execution of `plasma_zpbtrf` with return value 0
exists, so `C47_pbtrf` applies. -/
example : ∃ pk info mem', IsPotrf pk info ∧
    GExec (pbPar 2 .lower 3 1 3 0 3 3).env (zpbtrf 2 pk info rdv .lower 3 1 3) pbEx mem' 0 := by
  classical
  obtain ⟨pk, info, hpk⟩ := exists_isPotrf (𝕜 := ℝ)
  obtain ⟨mem', st, hx⟩ := zpbtrf_exists (nb := 2) (by decide) hpk rdv .lower 3 1 3 (by decide) pbEx
  have := (C47_pbtrf_info (by decide) hpk rdv_isDiv .lower 3 1 3 (by decide) pbEx mem' st hx).1.mpr pbEx_posDef
  exact ⟨pk, info, mem', hpk, this ▸ hx⟩

/-- The same matrix with two right-hand sides: an execution of `plasma_zpbsv` with return value 0
exists. -/
example : ∃ pk info mem', IsPotrf pk info ∧
    GExec (pbPar 2 .lower 3 1 3 2 4 4).env (zpbsv 2 pk info rdv .lower 3 1 2 3 4) pbEx mem' 0 := by
  classical
  obtain ⟨pk, info, hpk⟩ := exists_isPotrf (𝕜 := ℝ)
  obtain ⟨mem', st, hx⟩ := zpbsv_exists (nb := 2) (by decide) hpk rdv .lower 3 1 2 3 4 (by decide) (by decide) pbEx
  have := (C47_pbsv (by decide) hpk rdv_isDiv .lower 3 1 2 3 4 (by decide) (by decide) (by decide) pbEx mem' st
    hx).2.1.mpr pbEx_posDef
  exact ⟨pk, info, mem', hpk, this ▸ hx⟩

/-- `C47_pbtrs`: the array taken as a factor; an execution exists. -/
example : (∀ i, i < 3 → pbEx (.usr 0, bandIx .lower 1 3 i i) ≠ 0) ∧
    ∃ mem', Exec (pbPar 2 .lower 3 1 3 2 3 4).env (zpbtrs 2 rdv .lower 3 1 2 3 4) pbEx mem' := by
  refine ⟨fun i hi => by interval_cases i <;> simp [bandIx, pbEx], ?_⟩
  have hp : (pbPar 2 .lower 3 1 3 2 3 4).OK := pbPar_ok (by decide) (by decide) (by decide) (by decide)
  have hg : Good (evalid (pbPar 2 .lower 3 1 3 2 3 4).env) (zpbtrs 2 rdv .lower 3 1 2 3 4) := ?_
  · exact Exec.exists hp.wf hg.loc hg.ins _
  unfold zpbtrs
  simp only
  rw [if_neg (by decide)]
  refine Good.append (Good.append ((BPar.in_good hp).append (BPar.geIn_good hp)) ?_) (BPar.geOut_good hp)
  unfold ompZpbtrs
  split
  · exact Good.nil
  · exact pbSolve_good hp

/-- A failing case of `C47_pbtrf_info`: the zero matrix with one off-diagonal returns 1 in every
execution, and there is one. -/
example {pk : Uplo → Nat → Tl ℝ → Tl ℝ} {info : Uplo → Nat → Tl ℝ → Nat} (hpk : IsPotrf pk info) :
    ∃ mem' st, GExec (pbPar 1 .upper 2 1 2 0 2 2).env (zpbtrf 1 pk info rdv .upper 2 1 2) (fun _ => 0) mem' st ∧ st = 1 := by
  obtain ⟨mem', st, hx⟩ := zpbtrf_exists (nb := 1) (by decide) hpk rdv .upper 2 1 2 (by decide) (fun _ => 0)
  refine ⟨mem', st, hx, ?_⟩
  obtain ⟨h1, h2⟩ := C47_pbtrf_info (by decide) hpk rdv_isDiv .upper 2 1 2 (by decide) (fun _ => 0) mem' st hx
  have hno : ∀ k, 1 ≤ k → ¬ (open scoped ComplexOrder in (herM .upper (abE .upper 1 2 (fun _ : Buf × Nat => (0 : ℝ))) k).PosDef) := by
    intro k hk h
    rw [← hermM_lowE] at h
    obtain ⟨L, hL⟩ := posDef_iff_chol.mp h
    have := chol_diag_pos hL (r := 0) (by omega)
    simp [lowE, abE] at this
  have h0 : st ≠ 0 := fun h => hno 2 (by decide) (h1.mp h)
  obtain ⟨p, hp, h3, -, -, h4⟩ := h2 h0 (by decide)
  have : p = 1 := by
    by_contra hne
    exact hno 1 le_rfl (h4 1 (by omega))
  rw [hp, this]; rfl

end Verif.Props

/-
Conversion between LAPACK band storage and band tiles: C46.
-/
import Verif.DriverB

namespace Verif.Props

open Verif.Layout Verif.Tile Verif.Sched

universe v

variable {α : Type v} [Zero α]

/-- Element `(r, c)` lies in the band of half-bandwidth `kd`, in the triangle `u`. -/
def InBand (u : Uplo) (kd r c : Nat) : Prop :=
  if u = .upper then r ≤ c ∧ c ≤ r + kd else c ≤ r ∧ r ≤ c + kd

instance {u : Uplo} {kd r c : Nat} : Decidable (InBand u kd r c) := by unfold InBand; infer_instance

/-- LAPACK band storage: element `(r, c)` of the band is `AB(kd+1+r-c, c)` for the upper and
`AB(1+r-c, c)` for the lower triangle (compute/zpbtrf.c:44-56). -/
def bandIx (u : Uplo) (kd ld r c : Nat) : Nat := (if u = .upper then kd + r - c else r - c) + c * ld

/-- Parameters of the conversions of a Hermitian band matrix (compute/zpbtrf.c:118-123). -/
def pbPar (nb : Nat) (u : Uplo) (n kd ldab nrhs lmb ldb : Nat) : BPar :=
  ⟨nb, some u, n, kd, kd, ldab, nrhs, lmb, ldb⟩

/-- Parameters of the conversions of a general band matrix (compute/zgbtrf.c:88-101). -/
def gbPar (nb n kl ku ldab : Nat) : BPar := ⟨nb, none, n, kl, ku, ldab, 0, n, n⟩

section
variable {nb n kd ldab nrhs lmb ldb : Nat} {u : Uplo}

theorem pbPar_ok (hnb : 0 < nb) (hl : kd + 1 ≤ ldab) (h1 : n ≤ lmb) (h2 : n ≤ ldb) :
    (pbPar nb u n kd ldab nrhs lmb ldb).OK := by
  refine ⟨hnb, ?_, h1, h2⟩
  cases u <;> simp [pbPar, uKl, uKt] <;> omega

theorem inB_pb {it jt r c : Nat} : inB (some u) nb kd kd it jt r c ↔ InBand u kd r c := by
  cases u <;> simp [inB, InBand]

theorem addr_pb {r c : Nat} (h : InBand u kd r c) :
    (pbPar nb u n kd ldab nrhs lmb ldb).addr r c = bandIx u kd ldab r c := by
  cases u <;> simp [InBand] at h <;> simp [BPar.addr, pbPar, uKu, bandIx] <;> omega

omit [Zero α] in
theorem ab_pb (mem : Buf × Nat → α) {r c : Nat} (h : InBand u kd r c) :
    (pbPar nb u n kd ldab nrhs lmb ldb).ab mem r c = mem (.usr 0, bandIx u kd ldab r c) := by
  rw [BPar.ab, addr_pb h]

end

/-- Guarded programs whose kernels cannot fail behave like unguarded ones; used to reuse the
frame lemma. -/
theorem BPar_frame {p : BPar} (h : p.OK) {wA wB : Prop} {P : List (TTask (Buf × Nat × Nat) α)}
    {mem mem' : Buf × Nat → α} (hw : WritesE (p.WrB wA wB) P) (hg : Good (evalid p.env) P)
    (hx : Exec p.env P mem mem') (k x : Nat)
    (h0 : wA → k = 0 → ∀ r c, r < p.n → c < p.n → inB p.v p.nb p.kl p.ku (r / p.nb) (c / p.nb) r c →
      x ≠ p.addr r c)
    (h1 : wB → k = 1 → ∀ r c, r < p.n → c < p.nrhs → x ≠ r + c * p.ldb) :
    mem' (.usr k, x) = mem (.usr k, x) := by
  apply (Exec.correct h.wf hg.loc hg.ins (tcovered_of_declared hg.decl) hx).2
  rintro t ht ⟨a, m, n⟩ i j hwr hel
  have ha : a = .usr k := congrArg Prod.fst hel
  subst ha
  have hel : (p.env (.usr k)).off m n i j = x := congrArg Prod.snd hel
  rcases hw t ht _ i j hwr with ⟨k', e⟩ | ⟨hA, m', n', e, hi, hj, hB⟩ | ⟨hB, e⟩
  · cases e
  · have e' : p.uA.at' m' n' = (.usr 0, m', n') := by simp [BPar.uA, TMat.full, TMat.at', general]
    rw [e'] at e
    obtain ⟨e1, e2⟩ := Prod.mk.inj e
    obtain ⟨e2, e3⟩ := Prod.mk.inj e2
    cases e1; subst e2; subst e3
    rw [tdim_row] at hi hj
    refine h0 hA rfl (m * p.nb + i) (n * p.nb + j) hi.2 hj.2 ?_ hel.symm
    rw [div_of_tile hi.1, div_of_tile hj.1]
    exact hB
  · cases e
    have hv := (hg.ins t ht _ _ _ (Or.inr hwr)).1
    change TileOK p.nb p.nb p.n p.nrhs m n i j at hv
    rw [tileOK_iff] at hv
    refine h1 hB rfl (m * p.nb + i) (n * p.nb + j) hv.2.1 hv.2.2.2 ?_
    rw [← hel, MatEnv.off_lapack (l := p.ldb) rfl]
    show m * p.nb + i + p.ldb * (n * p.nb + j) = _
    ring

/-- **C46, to tiles.** Every execution of `plasma_pzpb2desc` leaves in the stored tiles exactly
the band of the user's array, and zero in all other elements of these tiles; the user's memory
is unchanged. -/
theorem C46_in {nb : Nat} (hnb : 0 < nb) (u : Uplo) (n kd ldab : Nat) (hl : kd + 1 ≤ ldab)
    (mem mem' : Buf × Nat → α)
    (hx : Exec (pbPar nb u n kd ldab 0 n n).env
      (pzpb2desc (some u) (pbPar nb u n kd ldab 0 n n).uA (pbPar nb u n kd ldab 0 n n).tA) mem mem') :
    (∀ r c, r < n → c < n → bTile (some u) nb kd kd (r / nb) (c / nb) →
      (pbPar nb u n kd ldab 0 n n).tA.el (view (eloc (pbPar nb u n kd ldab 0 n n).env) mem') r c =
        if InBand u kd r c then mem (.usr 0, bandIx u kd ldab r c) else 0) ∧
    (∀ r c, r < n → c < n → InBand u kd r c → bTile (some u) nb kd kd (r / nb) (c / nb)) ∧
    (∀ k x, mem' (.usr k, x) = mem (.usr k, x)) := by
  have hp : (pbPar nb u n kd ldab 0 n n).OK := pbPar_ok hnb hl le_rfl le_rfl
  refine ⟨?_, ?_, ?_⟩
  · intro r c hr hc ht
    rw [BPar.exec_tA hp (BPar.in_good hp).toC hx hr hc ht]
    refine Eq.trans (BPar.in_el hp mem hr hc ht) ?_
    by_cases hB : InBand u kd r c
    · rw [ab_pb _ hB]
      exact if_congr inB_pb rfl rfl
    · exact (if_neg fun h => hB (inB_pb.mp h)).trans (if_neg hB).symm
  · intro r c _ _ hB
    exact BPar.bTile_of_inB hnb (inB_pb.mpr hB)
  · intro k x
    exact BPar_frame hp (wA := False) (wB := False) (BPar.in_wr hp) (BPar.in_good hp) hx k x
      (fun h => h.elim) (fun h => h.elim)

/-- **C46, from tiles.** Every execution of `plasma_pzdesc2pb` writes exactly the band of the
user's array, with the contents of the tiles, and nothing else. -/
theorem C46_out {nb : Nat} (hnb : 0 < nb) (u : Uplo) (n kd ldab : Nat) (hl : kd + 1 ≤ ldab)
    (mem mem' : Buf × Nat → α)
    (hx : Exec (pbPar nb u n kd ldab 0 n n).env
      (pzdesc2pb (some u) (pbPar nb u n kd ldab 0 n n).tA (pbPar nb u n kd ldab 0 n n).uA) mem mem') :
    (∀ r c, r < n → c < n → InBand u kd r c → mem' (.usr 0, bandIx u kd ldab r c) =
      (pbPar nb u n kd ldab 0 n n).tA.el (view (eloc (pbPar nb u n kd ldab 0 n n).env) mem) r c) ∧
    (∀ k x, (k = 0 → ∀ r c, r < n → c < n → InBand u kd r c → x ≠ bandIx u kd ldab r c) →
      mem' (.usr k, x) = mem (.usr k, x)) := by
  have hp : (pbPar nb u n kd ldab 0 n n).OK := pbPar_ok hnb hl le_rfl le_rfl
  refine ⟨?_, ?_⟩
  · intro r c hr hc hB
    have ht := BPar.bTile_of_inB hnb ((inB_pb (nb := nb) (it := r / nb) (jt := c / nb)).mpr hB)
    have := BPar.exec_uA hp (BPar.out_good hp).toC hx hr hc ht (inB_pb.mpr hB)
    rw [ab_pb _ hB] at this
    rw [this]
    refine (pzdesc2pb_el (N := n) (BPar.al_tA hp) (BPar.al_uA hp) rfl rfl
      (by simp [BPar.uA, BPar.tA, TMat.full, bandT]) _ hr hc ht).trans ?_
    exact if_pos (inB_pb.mpr hB)
  · intro k x hk
    refine BPar_frame hp (wA := True) (wB := False) (BPar.out_wr hp) (BPar.out_good hp) hx k x ?_ (fun h => h.elim)
    intro _ h0 r c hr hc hB
    have := hk h0 r c hr hc (inB_pb.mp hB)
    have e := addr_pb (nb := nb) (n := n) (ldab := ldab) (nrhs := 0) (lmb := n) (ldb := n) (inB_pb.mp hB)
    exact fun hh => this (hh.trans e)

/-- **C46, round trip.** Converting to tiles and back changes nothing in the user's memory. -/
theorem C46_roundtrip {nb : Nat} (hnb : 0 < nb) (u : Uplo) (n kd ldab : Nat) (hl : kd + 1 ≤ ldab)
    (mem mem' : Buf × Nat → α)
    (hx : Exec (pbPar nb u n kd ldab 0 n n).env
      (pzpb2desc (some u) (pbPar nb u n kd ldab 0 n n).uA (pbPar nb u n kd ldab 0 n n).tA ++
        pzdesc2pb (some u) (pbPar nb u n kd ldab 0 n n).tA (pbPar nb u n kd ldab 0 n n).uA) mem mem') (k x : Nat) :
    mem' (.usr k, x) = mem (.usr k, x) := by
  have hp : (pbPar nb u n kd ldab 0 n n).OK := pbPar_ok hnb hl le_rfl le_rfl
  have hg : Good (evalid (pbPar nb u n kd ldab 0 n n).env)
      (pzpb2desc (α := α) (some u) (pbPar nb u n kd ldab 0 n n).uA (pbPar nb u n kd ldab 0 n n).tA ++
        pzdesc2pb (some u) (pbPar nb u n kd ldab 0 n n).tA (pbPar nb u n kd ldab 0 n n).uA) :=
    (BPar.in_good hp).append (BPar.out_good hp)
  by_cases hex : k = 0 ∧ ∃ r c, r < n ∧ c < n ∧ InBand u kd r c ∧ x = bandIx u kd ldab r c
  · obtain ⟨rfl, r, c, hr, hc, hB, rfl⟩ := hex
    have ht := BPar.bTile_of_inB hnb ((inB_pb (nb := nb) (it := r / nb) (jt := c / nb)).mpr hB)
    have := BPar.exec_uA hp hg.toC hx hr hc ht (inB_pb.mpr hB)
    rw [ab_pb _ hB] at this
    rw [this, texec_append]
    refine (pzdesc2pb_el (N := n) (BPar.al_tA hp) (BPar.al_uA hp) rfl rfl
      (by simp [BPar.uA, BPar.tA, TMat.full, bandT]) _ hr hc ht).trans ?_
    refine (if_pos (inB_pb.mpr hB)).trans ?_
    refine (BPar.in_el hp mem hr hc ht).trans ?_
    rw [ab_pb _ hB]
    exact if_pos (inB_pb.mpr hB)
  · refine BPar_frame hp (wA := True) (wB := False) ((BPar.in_wr hp).append (BPar.out_wr hp)) hg hx k x ?_
      (fun h => h.elim)
    intro _ h0 r c hr hc hB e
    refine hex ⟨h0, r, c, hr, hc, inB_pb.mp hB, ?_⟩
    rw [e]
    exact addr_pb (inB_pb.mp hB)

/-- The conversions have executions, so the theorems above are not vacuous. -/
theorem C46_exists {nb : Nat} (hnb : 0 < nb) (u : Uplo) (n kd ldab : Nat) (hl : kd + 1 ≤ ldab)
    (mem : Buf × Nat → α) : ∃ mem', Exec (pbPar nb u n kd ldab 0 n n).env
      (pzpb2desc (some u) (pbPar nb u n kd ldab 0 n n).uA (pbPar nb u n kd ldab 0 n n).tA ++
        pzdesc2pb (some u) (pbPar nb u n kd ldab 0 n n).tA (pbPar nb u n kd ldab 0 n n).uA) mem mem' := by
  have hp : (pbPar nb u n kd ldab 0 n n).OK := pbPar_ok hnb hl le_rfl le_rfl
  have hg := (BPar.in_good (α := α) hp).append (BPar.out_good hp)
  exact Exec.exists hp.wf hg.loc hg.ins mem

/-- A band that meets the hypotheses and is not a whole number of tiles: order 7, three
subdiagonals, tiles of size 2. -/
example : ∃ mem' : Buf × Nat → ℤ, Exec (pbPar 2 .lower 7 3 4 0 7 7).env
      (pzpb2desc (some .lower) (pbPar 2 .lower 7 3 4 0 7 7).uA (pbPar 2 .lower 7 3 4 0 7 7).tA ++
        pzdesc2pb (some .lower) (pbPar 2 .lower 7 3 4 0 7 7).tA (pbPar 2 .lower 7 3 4 0 7 7).uA)
      (fun x => (x.2 : ℤ)) mem' ∧ InBand .lower 3 6 3 ∧ ¬ InBand .lower 3 6 2 := by
  obtain ⟨m, hm⟩ := C46_exists (α := ℤ) (nb := 2) (by decide) .lower 7 3 4 (by decide) (fun x => (x.2 : ℤ))
  exact ⟨m, hm, by decide, by decide⟩

/-- **C46, general band matrices, partial.** The round trip is the identity if the
leading dimension has room for `nb` rows more than the band with its fill-in, and for a diagonal
tile.  The full claim would need only `kl + ku + 1 ≤ ldab`, what the drivers check
(compute/zgbtrf.c:80-83); see `C46_general_aliases`. -/
theorem C46_general_roundtrip_partial {nb : Nat} (hnb : 0 < nb) (n kl ku ldab : Nat)
    (hl : (kl + nb) + max (ku + kl) (nb - 1) + 1 ≤ ldab) (mem mem' : Buf × Nat → α)
    (hx : Exec (gbPar nb n kl ku ldab).env
      (pzpb2desc none (gbPar nb n kl ku ldab).uA (gbPar nb n kl ku ldab).tA ++
        pzdesc2pb none (gbPar nb n kl ku ldab).tA (gbPar nb n kl ku ldab).uA) mem mem') (k x : Nat) :
    mem' (.usr k, x) = mem (.usr k, x) := by
  have hp : (gbPar nb n kl ku ldab).OK := ⟨hnb, hl, le_rfl, le_rfl⟩
  have hg : Good (evalid (gbPar nb n kl ku ldab).env)
      (pzpb2desc (α := α) none (gbPar nb n kl ku ldab).uA (gbPar nb n kl ku ldab).tA ++
        pzdesc2pb none (gbPar nb n kl ku ldab).tA (gbPar nb n kl ku ldab).uA) :=
    (BPar.in_good hp).append (BPar.out_good hp)
  by_cases hex : k = 0 ∧ ∃ r c, r < n ∧ c < n ∧ bTile none nb kl ku (r / nb) (c / nb) ∧
      inB none nb kl ku (r / nb) (c / nb) r c ∧ x = ku + kl + r + c * ldab - c
  · obtain ⟨rfl, r, c, hr, hc, ht, hB, rfl⟩ := hex
    have := BPar.exec_uA hp hg.toC hx hr hc ht hB
    change mem' (.usr 0, ku + kl + r + c * ldab - c) = _ at this
    rw [this, texec_append]
    refine (pzdesc2pb_el (N := n) (BPar.al_tA hp) (BPar.al_uA hp) rfl rfl
      (by simp [BPar.uA, BPar.tA, TMat.full, bandT]) _ hr hc ht).trans ?_
    refine (if_pos hB).trans ?_
    refine (BPar.in_el hp mem hr hc ht).trans ?_
    exact if_pos hB
  · apply (Exec.correct hp.wf hg.loc hg.ins (tcovered_of_declared hg.decl) hx).2
    rintro t ht ⟨a, m, n'⟩ i j hwr hel
    rcases List.mem_append.mp ht with ht | ht
    · obtain ⟨m', n'', e, -⟩ := pzpb2desc_wr (N := n) (BPar.al_tA hp) rfl rfl t ht _ i j hwr
      have h1 : a = .til 0 := congrArg Prod.fst e
      have h2 : a = .usr k := congrArg Prod.fst hel
      rw [h1] at h2; cases h2
    · obtain ⟨m', n'', e, h1, h2, h3, hi, hj, hB⟩ := pzdesc2pb_wr (N := n) (BPar.al_tA hp) rfl rfl t ht _ i j hwr
      have e' : (gbPar nb n kl ku ldab).uA.at' m' n'' = (.usr 0, m', n'') := by
        simp [BPar.uA, TMat.full, TMat.at', general]
      rw [e'] at e
      obtain ⟨e1, e2⟩ := Prod.mk.inj e
      obtain ⟨e2, e3⟩ := Prod.mk.inj e2
      subst e1; subst e2; subst e3
      have h0 : (.usr 0 : Buf) = .usr k := congrArg Prod.fst hel
      cases h0
      have hel : ((gbPar nb n kl ku ldab).env (.usr 0)).off m n' i j = x := congrArg Prod.snd hel
      change i < tdim n nb m at hi
      change j < tdim n nb n' at hj
      rw [tdim_row] at hi hj
      refine hex ⟨rfl, m * nb + i, n' * nb + j, hi.2, hj.2, ?_, ?_, hel.symm⟩
      · rw [div_of_tile hi.1, div_of_tile hj.1]; exact h3
      · rw [div_of_tile hi.1, div_of_tile hj.1]; exact hB

example : (1 + 3) + max (1 + 1) (3 - 1) + 1 ≤ 7 := by decide

/-- **C46 fails for general band matrices.** With the smallest leading dimension that
`plasma_zgbtrf` and `plasma_zgbsv` accept (compute/zgbtrf.c:80-83: `ldab ≥ kl+ku+1`), a diagonal
matrix (`kl = ku = 0`) of order 2 with `nb = 2` is read from its two stored elements `mem 0`,
`mem 1` as the full tile with rows `(mem 0, mem 0)` and `(mem 1, mem 1)`, which is singular. -/
theorem C46_general_aliases (mem : Int → α) (B : Tl α) :
    ∀ i j : Nat, i < 2 → j < 2 →
      l2tRun (l2tSteps none 0 0 2 2 2 0 0) (fun i j => mem (bandAddr 0 1 2 0 0 i j)) B i j = mem i := by
  intro i j hi hj
  have h1 : ((i : Int), (j : Int), true) ∈ l2tSteps none 0 0 2 2 2 0 0 := by
    rw [mem_l2t_true]; simp only [bJs, bJe, bIs, bIe]; norm_num; omega
  have h2 : ((i : Int), (j : Int), false) ∉ l2tSteps none 0 0 2 2 2 0 0 := by
    rw [mem_l2t_false]; simp only [bJs, bJe, bIs, bIe]; norm_num; omega
  rw [l2tRun_in h1 h2]
  simp [bandAddr]

/-- **C46 fails for rectangular general band matrices.** For 11 rows, more than 20 columns, tiles
of size 10, `kl = 0` and `ku = 1`, the conversion visits tile `(1, 2)`, and there assigns zero to
elements in columns with negative index, outside of the tile
(compute/pzpb2desc.c:39-40, core_blas/core_zlacpy_band.c:63-65, 106-110). -/
theorem C46_general_underrun (d : Desc) (hm : d.m = 11) (hnb : d.nb = 10) (hkl : d.kl = 0) (hku : d.ku = 1)
    (hn : 20 < d.n) :
    1 ∈ span (msIn none d 2) (mEnd none d 2 + 1) ∧
    (0, -1, false) ∈ l2tSteps none 1 2 (min 10 (11 - 1 * 10)) (min 10 (d.n - 2 * 10)) 10 d.kl d.ku := by
  constructor
  · simp [mem_span, msIn, mEnd, hm, hnb, hkl, hku]
  · rw [mem_l2t_false, hkl, hku]
    simp only [bJs, bJe, bIs, bIe]
    norm_num
    omega

example : ∃ d : Desc, d.m = 11 ∧ d.nb = 10 ∧ d.kl = 0 ∧ d.ku = 1 ∧ 20 < d.n :=
  ⟨{ general 10 10 20 30 0 0 11 30 with kl := 0, ku := 1 }, by decide⟩

end Verif.Props

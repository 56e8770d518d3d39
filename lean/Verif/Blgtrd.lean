/-
The reflectors of the bulge chasing, when vectors are wanted: where they are stored (include/bulge.h), how they are gathered in blocks
(compute/pzlarft_blgtrd.c) and how the blocks are applied (compute/pzunmqr_blgtrd.c, core_blas/core_zlarfb_gemm.c).
-/
import Verif.House
import Verif.Sched
import Verif.Bulge

namespace Verif.Blg

open Verif.Layout Verif.Qr Finset Matrix

universe v

/-! ### Places in the arrays -/

/-- `plasma_ceildiv((N-(mastersweep+2)),NB)` (include/bulge.h:51-52, 76-77), number of blocks in block column `c`. The double precision division is exact
enough for all `int` arguments; the numerator is not negative where it is called. -/
def colcnt (N NB V c : Nat) : Nat := ceilDiv (N - (c * V + 2)) NB

/-- Blocks in the block columns before `c` (include/bulge.h:48-54). -/
def prevcnt (N NB V c : Nat) : Nat := ∑ j ∈ range c, colcnt N NB V j

/-- `myblkid` of `findVTpos` (include/bulge.h:55-56). -/
def blkid (N NB V sweep st : Nat) : Nat := prevcnt N NB V (sweep / V) + ceilDiv (st - sweep) NB - 1

/-- `LDV` (include/bulge.h:58). -/
def ldv (NB V : Nat) : Nat := NB + V - 1

/-- `Vpos` (include/bulge.h:61). -/
def vpos (N NB V sweep st : Nat) : Nat := blkid N NB V sweep st * V * ldv NB V + sweep % V * ldv NB V + sweep % V

/-- `TAUpos` (include/bulge.h:62). -/
def taupos (N NB V sweep st : Nat) : Nat := blkid N NB V sweep st * V + sweep % V

/-- `Tpos` (include/bulge.h:63). -/
def tpos (N NB V sweep st : Nat) : Nat := blkid N NB V sweep st * V * V + sweep % V * V + sweep % V

/-- `blkcnt` of `findVTsiz` (include/bulge.h:73-81). -/
def blkcnt (N NB V : Nat) : Nat := prevcnt N NB V (ceilDiv (N - 1) V) + 1

/-- Reflector `q` of sweep `s` exists: the first of every sweep, and the later ones while they have at least two elements
(compute/pzgbbrd_static.c, see `isRefl_iff`). It starts in row `s + 1 + q*NB`. -/
def IsRefl (N NB s q : Nat) : Prop := s + 1 < N ∧ (q = 0 ∨ s + 1 + q * NB + 1 < N)

instance (N NB s q : Nat) : Decidable (IsRefl N NB s q) := by unfold IsRefl; infer_instance

/-- First row of a reflector. -/
def rst (NB s q : Nat) : Nat := s + 1 + q * NB

/-! ### The loops over the blocks -/

/-- `nt` (compute/pzlarft_blgtrd.c:82, compute/pzunmqr_blgtrd.c:248,321). -/
def ntB (N V : Nat) : Nat := ceilDiv (N - 1) V

/-- `mt` (compute/pzlarft_blgtrd.c:87-90, compute/pzunmqr_blgtrd.c:325-330). -/
def mtB (N NB V j : Nat) : Nat := if j = ntB N V - 1 then ceilDiv (N - (j * V + 1)) NB else ceilDiv (N - (j * V + 1 + 1)) NB

/-- `myrow`, with `q = mt - blki` (compute/pzlarft_blgtrd.c:94). -/
def myrow (NB V : Nat) (b : Nat × Nat) : Nat := b.1 * V + 1 + b.2 * NB

/-- `Vm` (compute/pzlarft_blgtrd.c:96). -/
def vm (N NB V : Nat) (b : Nat × Nat) : Nat := min (NB + V - 1) (N - myrow NB V b)

/-- `Vn` (compute/pzlarft_blgtrd.c:97-101); `blki = mt` is `q = 0`. -/
def vn (N NB V : Nat) (b : Nat × Nat) : Nat :=
  if b.1 = ntB N V - 1 ∧ b.2 = 0 then min V (vm N NB V b) else min V (vm N NB V b - 1)

/-- The blocks `(blkj, mt - blki)` in the order of the loops (compute/pzlarft_blgtrd.c:83-92, compute/pzunmqr_blgtrd.c:322-333). -/
def diamonds (N NB V : Nat) : List (Nat × Nat) :=
  (List.range (ntB N V)).reverse.flatMap fun j => (List.range (mtB N NB V j)).map fun q => (j, q)

/-- Block number of a block, `findVTpos(N,NB,Vblksiz,mycol,myrow,...)` (compute/pzlarft_blgtrd.c:105). -/
def bid (N NB V : Nat) (b : Nat × Nat) : Nat := blkid N NB V (b.1 * V) (myrow NB V b)

section
variable {N NB V : Nat}

theorem mem_diamonds {b : Nat × Nat} : b ∈ diamonds N NB V ↔ b.1 < ntB N V ∧ b.2 < mtB N NB V b.1 := by
  obtain ⟨j, q⟩ := b
  simp [diamonds]

theorem ceil_one (hNB : 0 < NB) (q : Nat) : ceilDiv (1 + q * NB) NB = q + 1 := by
  unfold ceilDiv
  rw [show 1 + q * NB + NB - 1 = (q + 1) * NB by rw [Nat.add_mul]; omega, Nat.mul_div_cancel _ hNB]

theorem blkid_refl (hNB : 0 < NB) (s q : Nat) : blkid N NB V s (rst NB s q) = prevcnt N NB V (s / V) + q := by
  unfold blkid rst
  rw [show s + 1 + q * NB - s = 1 + q * NB by omega, ceil_one hNB]
  omega

theorem bid_eq (hNB : 0 < NB) (hV : 0 < V) (b : Nat × Nat) : bid N NB V b = prevcnt N NB V b.1 + b.2 := by
  have h := blkid_refl (N := N) (V := V) hNB (b.1 * V) b.2
  rw [Nat.mul_div_cancel _ hV] at h
  exact h

theorem lt_ntB (hV : 0 < V) {j : Nat} : j < ntB N V ↔ j * V + 1 < N := by
  unfold ntB
  rw [lt_ceilDiv hV]
  omega

theorem sweep_nt (hV : 0 < V) {s : Nat} (h : s + 1 < N) : s / V < ntB N V := by
  rw [lt_ntB hV]
  have := Nat.div_mul_le_self s V
  omega

/-- The columns of a block are exactly the reflectors that exist. -/
theorem lt_vn (hNB : 2 ≤ NB) (hV : 0 < V) {j q l : Nat} (hj : j < ntB N V) : l < vn N NB V (j, q) ↔ l < V ∧ IsRefl N NB (j * V + l) q := by
  have h1 := (lt_ntB (N := N) hV).mp hj
  unfold vn vm myrow IsRefl
  simp only
  split
  · rename_i h
    obtain ⟨h, rfl⟩ := h
    simp only [zero_mul, true_or, and_true]
    omega
  · rename_i h
    by_cases hq : q = 0
    · subst hq
      have h2 : j + 1 < ntB N V := by omega
      have h3 := (lt_ntB (N := N) hV).mp h2
      rw [Nat.add_mul] at h3
      simp only [zero_mul, true_or, and_true]
      omega
    · simp only [hq, false_or]
      have : NB ≤ q * NB := Nat.le_mul_of_pos_left _ (by omega)
      omega

theorem refl_col (hNB : 0 < NB) (hV : 0 < V) {s q : Nat} (h : IsRefl N NB s q) (hj : s / V < ntB N V - 1) : q < colcnt N NB V (s / V) := by
  unfold colcnt
  rw [lt_ceilDiv hNB]
  have h1 : (s / V + 1) * V + 1 < N := (lt_ntB hV).mp (by have := Nat.zero_le (s / V); omega)
  rw [Nat.add_mul] at h1
  have h2 := Nat.div_mul_le_self s V
  obtain ⟨h3, rfl | h4⟩ := h
  · rw [zero_mul]; omega
  · omega

theorem refl_mt (hNB : 0 < NB) (hV : 0 < V) {s q : Nat} (h : IsRefl N NB s q) : q < mtB N NB V (s / V) := by
  have hs := sweep_nt hV h.1
  unfold mtB
  split
  · rw [lt_ceilDiv hNB]
    have h2 := Nat.div_mul_le_self s V
    obtain ⟨h3, rfl | h4⟩ := h
    · rw [zero_mul]; omega
    · omega
  · exact refl_col hNB hV h (by omega)

theorem vn_le (b : Nat × Nat) : vn N NB V b ≤ V := by
  unfold vn
  split <;> omega

theorem prevcnt_mono {a b : Nat} (h : a ≤ b) : prevcnt N NB V a ≤ prevcnt N NB V b :=
  Finset.sum_le_sum_of_subset (Finset.range_mono h)

/-- Blocks are numbered without repetition. -/
theorem bid_inj (hNB : 0 < NB) (hV : 0 < V) {b b' : Nat × Nat} (hb : b ∈ diamonds N NB V) (hb' : b' ∈ diamonds N NB V)
    (h : bid N NB V b = bid N NB V b') : b = b' := by
  have key : ∀ b b' : Nat × Nat, b ∈ diamonds N NB V → b' ∈ diamonds N NB V → b.1 < b'.1 → bid N NB V b < bid N NB V b' := by
    intro b b' hb hb' hlt
    rw [mem_diamonds] at hb hb'
    rw [bid_eq hNB hV, bid_eq hNB hV]
    have h1 : b.2 < colcnt N NB V b.1 := by
      have := hb.2
      unfold mtB at this
      rw [if_neg (by omega)] at this
      exact this
    have h2 : prevcnt N NB V (b.1 + 1) ≤ prevcnt N NB V b'.1 := prevcnt_mono hlt
    unfold prevcnt at h2 ⊢
    rw [sum_range_succ] at h2
    omega
  rcases Nat.lt_trichotomy b.1 b'.1 with h1 | h1 | h1
  · have := key _ _ hb hb' h1; omega
  · rw [bid_eq hNB hV, bid_eq hNB hV, h1] at h
    exact Prod.ext h1 (by omega)
  · have := key _ _ hb' hb h1; omega

/-- Blocks that hold a reflector lie inside of the arrays. -/
theorem bid_lt (hNB : 0 < NB) (hV : 0 < V) {s q : Nat} (h : IsRefl N NB s q) : blkid N NB V s (rst NB s q) < blkcnt N NB V := by
  have hs := sweep_nt hV h.1
  rw [blkid_refl hNB]
  unfold blkcnt
  rw [← ntB]
  by_cases hl : s / V < ntB N V - 1
  · have h1 := refl_col hNB hV h hl
    have h2 : prevcnt N NB V (s / V + 1) ≤ prevcnt N NB V (ntB N V) := prevcnt_mono hs
    unfold prevcnt at h2 ⊢
    rw [sum_range_succ] at h2
    omega
  · have h1 : ntB N V = s / V + 1 := by omega
    rw [h1]
    unfold prevcnt
    rw [sum_range_succ]
    have h2 : q ≤ colcnt N NB V (s / V) := by
      unfold colcnt
      obtain ⟨h3, rfl | h4⟩ := h
      · omega
      · refine Nat.le_of_lt ((lt_ceilDiv hNB).mpr ?_)
        have h2 := Nat.div_mul_le_self s V
        omega
    omega

theorem isRefl_iff (hn : 2 ≤ N) (hNB : 0 < NB) {s q : Nat} : IsRefl N NB s q ↔ Bulge.IsBlk N NB (2 * q + 1, s + 1) := by
  unfold IsRefl Bulge.IsBlk
  simp only
  rcases q with _ | q
  · have := Bulge.len_pos N NB (s + 1)
    omega
  · by_cases hs : s + 1 < N
    swap
    · omega
    have h5 := Bulge.last_iff (p := 2 * q + 2) (s := s + 1) hn hNB (by omega) (by omega)
    rw [Bulge.isLast_even (by omega)] at h5
    rw [Nat.add_mul]
    omega

end
end Verif.Blg

/-
The loops, kernels and reductions of `plasma_pzlangb`.
-/
import Verif.Langb
import Verif.Props.Norm
import Verif.Props.Gbmm

namespace Verif.Props

open Verif.Layout Verif.Tile Verif.Norm Finset

set_option linter.unusedSectionVars false

universe v

/-! ### The loops of `plasma_pzlangb` -/

/-- `m_start` of `plasma_pzlangb` (compute/pzlangb.c:52, 85, 112, 145). -/
def lbS (D : Desc) (n : Nat) : Nat := kStart D.nb D.ku n
/-- `m_end` of `plasma_pzlangb` (compute/pzlangb.c:53, 86, 113, 146). -/
def lbE (D : Desc) (n : Nat) : Nat := kEnd D.nb D.m D.kl n

/-- The tiles visited by `plasma_pzlangb`, in program order. -/
def lbTiles (D : Desc) : List (Nat × Nat) := colPairs D.nt fun n => span (lbS D n) (lbE D n + 1)

/-- `ldwork = kut+klt+1` of `plasma_pzlangb` (compute/pzlangb.c:79-82, 138-140). -/
def lbLd (D : Desc) : Nat := (D.ku + D.nb - 1) / D.nb + (D.kl + D.nb - 1) / D.nb + 1

/-- Elements of the work array allocated by `plasma_zlangb` (compute/zlangb.c:143-162). -/
def lbAlloc (k : NormK) (D : Desc) : Nat :=
  let tku := (D.ku + D.kl + D.nb - 1) / D.nb
  let tkl := (D.kl + D.nb - 1) / D.nb
  match k with
  | .max => (D.klt + D.kut - 1) * D.nt
  | .one => D.n * (tku + tkl + 1) + D.n
  | .inf => D.nt * D.mt * D.mb + D.mb * D.mt
  | .fro => 2 * (tku + tkl + 1) * D.nt

/-- The part of the work array used, as a matrix with contiguous columns.  The last `n` (`mb*mt`) elements are
used by `dlange` only and left out. -/
def lbWork (k : NormK) (D : Desc) : Nat × Nat :=
  match k with
  | .max => (1, (lbTiles D).length)
  | .one => (D.n, lbLd D)
  | .inf => (D.mb * D.mt, D.nt)
  | .fro => (lbLd D, 2 * D.nt)

section
variable {𝕜 : Type v} [RCLike 𝕜]

/-- Kernel calls of `plasma_pzlangb` (compute/pzlangb.c:28-158), for a tile and the value of `wcnt`. -/
def langbBlk (lsq : ℝ × ℝ → List 𝕜 → ℝ × ℝ) (junk : Nat → ℝ) (k : NormK) (D : Desc) (t : (Nat × Nat) × Nat) : Blk 𝕜 :=
  let m := t.1.1
  let n := t.1.2
  match k with
  | .max => cellB m n 0 t.2 (langeMax (D.mview m) (D.nview n))
  | .one => vecB m n (m - lbS D n) (n * D.nb) (D.nview n) fun a => langeAuxOne (D.mview m) (D.nview n) a junk
  | .inf => vecB m n n (m * D.mb) (D.mview m) fun a => langeAuxInf (D.mview m) (D.nview n) a junk
  | .fro => pairB m n (m - lbS D n) n D.nt (gessq lsq (D.mview m) (D.nview n))

/-- The reductions of `plasma_pzlangb` (compute/pzlangb.c:66-71, 97-103, 124-131, 155-157);
`sumsq = work + ldwork*nt`. -/
noncomputable def langbRed (k : NormK) (D : Desc) (w : Nat → Nat → ℝ) : ℝ :=
  match k with
  | .max => maxOf (allPos 1 (lbTiles D).length) fun p q => |w p q|
  | .one => infNorm D.n (lbLd D) w
  | .inf => infNorm (D.mb * D.mt) D.nt w
  | .fro => gessqAux (lbLd D * D.nt) (fun i => w (i % lbLd D) (i / lbLd D))
      (fun i => w ((lbLd D * D.nt + i) % lbLd D) ((lbLd D * D.nt + i) / lbLd D))

/-! ### Arithmetic of the loops -/

section arith
variable {id : Buf} {b lm m n kl ku : Nat}

theorem mem_lbTiles (hb : 0 < b) (hm : 0 < m) {p q : Nat} :
    (p, q) ∈ lbTiles (bandR id b lm m n kl ku).d ↔ p * b < m ∧ q * b < n ∧ bandTile b kl ku p q := by
  have hal := bandR_al id hb lm m n kl ku
  unfold lbTiles
  rw [mem_colPairs, mem_span]
  show q < (bandR id b lm m n kl ku).d.nt ∧ (kStart b ku q ≤ p ∧ p < kEnd b m kl q + 1) ↔ _
  rw [mem_k hb hm, hal.lt_nt, lt_ceilDiv hb]
  unfold bandTile
  show q * b < n ∧ _ ↔ _
  tauto

theorem nodup_lbTiles {D : Desc} : (lbTiles D).Nodup := nodup_colPairs fun _ => nodup_span

theorem lb_range (hb : 0 < b) (hm : 0 < m) (q : Nat) :
    kEnd b m kl q + 1 ≤ kStart b ku q + ((ku + b - 1) / b + (kl + b - 1) / b + 1) := by
  by_cases h : kStart b ku q < kEnd b m kl q + 1
  · have h1 := (mem_k hb hm).mp (show kStart b ku q ≤ kStart b ku q ∧ kStart b ku q < kEnd b m kl q + 1 from ⟨le_rfl, h⟩)
    have h2 := (mem_k hb hm).mp (show kStart b ku q ≤ kEnd b m kl q ∧ kEnd b m kl q < kEnd b m kl q + 1 by omega)
    have k1 := BPar.lt_bkt (b := b) (k := ku) (d := q - kStart b ku q) hb
    have k2 := BPar.lt_bkt (b := b) (k := kl) (d := kEnd b m kl q - q) hb
    rw [Nat.sub_mul] at k1 k2
    generalize kEnd b m kl q = E at *
    generalize kStart b ku q = S at *
    generalize (ku + b - 1) / b = x at *
    generalize (kl + b - 1) / b = y at *
    obtain ⟨-, h1, -⟩ := h1
    obtain ⟨-, -, h2⟩ := h2
    generalize S * b = S' at *
    generalize E * b = E' at *
    generalize q * b = Q at *
    omega
  · generalize (ku + b - 1) / b = x
    generalize (kl + b - 1) / b = y
    omega

/-- A sum over the tiles of one column of the work array. -/
theorem lb_sum (hb : 0 < b) (hm : 0 < m) {q : Nat} {T : Nat → ℝ}
    (h0 : ∀ p, ¬ bandTile b kl ku p q → T p = 0) :
    (∑ k ∈ range ((ku + b - 1) / b + (kl + b - 1) / b + 1),
      if kStart b ku q + k < kEnd b m kl q + 1 then T (kStart b ku q + k) else 0) = ∑ p ∈ range (ceilDiv m b), T p := by
  have hr := lb_range (kl := kl) (ku := ku) hb hm q
  have hk := fun t => mem_k (kw := ku) (kw' := kl) (m := q) (t := t) hb hm
  generalize (ku + b - 1) / b + (kl + b - 1) / b + 1 = L at *
  generalize kStart b ku q = S at *
  generalize kEnd b m kl q + 1 = E at *
  rw [← Finset.sum_filter, ← Finset.sum_subset (s₁ := Ico S E) (s₂ := range (ceilDiv m b))]
  · refine Finset.sum_bij' (fun k _ => S + k) (fun p _ => p - S) ?_ ?_ ?_ ?_ ?_
    · intro k hk'; simp only [mem_filter, mem_range] at hk'; simp only [mem_Ico]; omega
    · intro k hk'; simp only [mem_Ico] at hk'; simp only [mem_filter, mem_range]; omega
    · intro k hk'; omega
    · intro k hk'; simp only [mem_Ico] at hk'; omega
    · intro k _; rfl
  · intro t ht
    rw [mem_Ico] at ht
    exact mem_range.mpr ((hk t).mp ht).1
  · intro t ht ht'
    apply h0
    rintro ⟨h1, h2⟩
    exact ht' (mem_Ico.mpr ((hk t).mpr ⟨mem_range.mp ht, h2, h1⟩))

theorem length_colPairs {n L : Nat} {S : Nat → List Nat} (h : ∀ j, (S j).length ≤ L) :
    (colPairs n S).length ≤ n * L := by
  unfold colPairs
  induction n with
  | zero => simp
  | succ n ih =>
    rw [List.range_succ, List.flatMap_append, List.length_append]
    have := h n
    simp only [List.flatMap_cons, List.flatMap_nil, List.append_nil, List.length_map]
    rw [Nat.add_mul]
    omega

/-- The work array is large enough for all norms. -/
theorem lbWork_fits (hb : 0 < b) (hm : 0 < m) (k : NormK) :
    (lbWork k (bandR id b lm m n kl ku).d).1 * (lbWork k (bandR id b lm m n kl ku).d).2 ≤
      lbAlloc k (bandR id b lm m n kl ku).d := by
  set D := (bandR id b lm m n kl ku).d with hD
  have hld : lbLd D ≤ (D.ku + D.kl + D.nb - 1) / D.nb + (D.kl + D.nb - 1) / D.nb + 1 := by
    unfold lbLd
    have : (D.ku + D.nb - 1) / D.nb ≤ (D.ku + D.kl + D.nb - 1) / D.nb := Nat.div_le_div_right (by omega)
    omega
  cases k
  · show 1 * (lbTiles D).length ≤ (D.klt + D.kut - 1) * D.nt
    have e : D.klt + D.kut - 1 = (D.ku + D.kl + D.nb - 1) / D.nb + (D.kl + D.nb - 1) / D.nb + 1 := by
      show (1 + (0 + kl + b - 1) / b - 0 / b) + (1 + (0 + ku + kl + b - 1) / b - 0 / b) - 1 =
        (ku + kl + b - 1) / b + (kl + b - 1) / b + 1
      rw [Nat.zero_div, Nat.zero_add, Nat.zero_add]
      generalize (ku + kl + b - 1) / b = x
      generalize (kl + b - 1) / b = y
      omega
    rw [Nat.one_mul, e]
    refine le_trans (length_colPairs (L := lbLd D) ?_) ?_
    · intro j
      have := lb_range (kl := kl) (ku := ku) hb hm j
      have e : (span (lbS D j) (lbE D j + 1)).length = kEnd b m kl j + 1 - kStart b ku j := by
        unfold span; rw [List.length_range']; rfl
      rw [e]
      show _ ≤ (ku + b - 1) / b + (kl + b - 1) / b + 1
      revert this
      generalize (ku + b - 1) / b = x
      generalize (kl + b - 1) / b = y
      omega
    · rw [Nat.mul_comm]
      exact Nat.mul_le_mul_right _ hld
  · show D.n * lbLd D ≤ D.n * ((D.ku + D.kl + D.nb - 1) / D.nb + (D.kl + D.nb - 1) / D.nb + 1) + D.n
    have := Nat.mul_le_mul_left D.n hld
    omega
  · show D.mb * D.mt * D.nt ≤ D.nt * D.mt * D.mb + D.mb * D.mt
    have : D.mb * D.mt * D.nt = D.nt * D.mt * D.mb := by ring
    omega
  · show lbLd D * (2 * D.nt) ≤ 2 * ((D.ku + D.kl + D.nb - 1) / D.nb + (D.kl + D.nb - 1) / D.nb + 1) * D.nt
    have := Nat.mul_le_mul_right (2 * D.nt) hld
    refine le_trans this (le_of_eq (by ring))

end arith

/-! ### The kernels use tiles of the matrix and different parts of the work array -/

section blk
variable {id : Buf} {b lm m n kl ku : Nat}

theorem zipIdx_inj {β : Type} {L : List β} (h : L.Nodup) {t t' : β × Nat} (ht : t ∈ L.zipIdx) (ht' : t' ∈ L.zipIdx)
    (e : t.1 = t'.1) : t = t' := by
  rw [List.mem_zipIdx_iff_getElem?] at ht ht'
  obtain ⟨h1, e1⟩ := List.getElem?_eq_some_iff.mp ht
  obtain ⟨h2, e2⟩ := List.getElem?_eq_some_iff.mp ht'
  refine Prod.ext e ?_
  exact (List.Nodup.getElem_inj_iff h).mp (by rw [e1, e2, e])

theorem zipIdx_inj' {β : Type} {L : List β} {t t' : β × Nat} (ht : t ∈ L.zipIdx) (ht' : t' ∈ L.zipIdx)
    (e : t.2 = t'.2) : t = t' := by
  rw [List.mem_zipIdx_iff_getElem?] at ht ht'
  rw [e, ht'] at ht
  exact Prod.ext (Option.some.inj ht).symm e

theorem nodup_zipIdx {β : Type} (L : List β) : L.zipIdx.Nodup := by
  refine List.Nodup.of_map Prod.snd ?_
  rw [List.zipIdx_map_snd]
  exact List.nodup_range'

theorem zipIdx_mem {β : Type} {L : List β} {t : β × Nat} (h : t ∈ L.zipIdx) : t.1 ∈ L ∧ t.2 < L.length := by
  rw [List.mem_zipIdx_iff_getElem?] at h
  obtain ⟨h1, e1⟩ := List.getElem?_eq_some_iff.mp h
  exact ⟨e1 ▸ List.getElem_mem h1, h1⟩

theorem langbBlk_m {lsq : ℝ × ℝ → List 𝕜 → ℝ × ℝ} {junk : Nat → ℝ} {k : NormK} {D : Desc} {t : (Nat × Nat) × Nat} :
    (langbBlk lsq junk k D t).m = t.1.1 ∧ (langbBlk lsq junk k D t).n = t.1.2 := by
  cases k <;> exact ⟨rfl, rfl⟩

theorem langbBlk_ok {lsq : ℝ × ℝ → List 𝕜 → ℝ × ℝ} {junk : Nat → ℝ} {k : NormK} (hb : 0 < b) (hm : 0 < m)
    {W : TMat Buf} (hW1 : W.d.m = (lbWork k (bandR id b lm m n kl ku).d).1)
    (hW2 : W.d.n = (lbWork k (bandR id b lm m n kl ku).d).2) :
    BlkOK (bandR id b lm m n kl ku) W (lbTiles (bandR id b lm m n kl ku).d).zipIdx
      (langbBlk (𝕜 := 𝕜) lsq junk k (bandR id b lm m n kl ku).d) := by
  have hal := bandR_al id hb lm m n kl ku
  set A := bandR id b lm m n kl ku with hA
  have am : A.d.m = m := rfl
  have an : A.d.n = n := rfl
  have hL : ∀ t ∈ (lbTiles A.d).zipIdx, (t.1.1 < A.d.mt ∧ t.1.2 < A.d.nt) ∧ bandTile b kl ku t.1.1 t.1.2 ∧
      lbS A.d t.1.2 ≤ t.1.1 ∧ t.1.1 - lbS A.d t.1.2 < lbLd A.d := by
    intro t ht
    have h := (zipIdx_mem ht).1
    have h' := (mem_lbTiles hb hm).mp (show (t.1.1, t.1.2) ∈ lbTiles A.d from h)
    have h2 := (mem_colPairs.mp h).2
    rw [mem_span] at h2
    refine ⟨⟨by rw [hal.lt_mt]; exact h'.1, by rw [hal.lt_nt]; exact h'.2.1⟩, h'.2.2, h2.1, ?_⟩
    have h3 : t.1.1 < kEnd b m kl t.1.2 + 1 := h2.2
    have h4 := lb_range (kl := kl) (ku := ku) hb hm t.1.2
    have h5 : kStart b ku t.1.2 ≤ t.1.1 := h2.1
    show t.1.1 - kStart b ku t.1.2 < (ku + b - 1) / b + (kl + b - 1) / b + 1
    generalize (ku + b - 1) / b + (kl + b - 1) / b + 1 = X at *
    omega
  refine ⟨nodup_zipIdx _, ?_, ?_, ?_, ?_⟩
  · intro t ht
    cases k <;> exact (hL t ht).1
  · intro t ht a a' haa r c hR
    obtain ⟨⟨h1, h2⟩, -⟩ := hL t ht
    have e1 := hal.mview h1
    have e2 := hal.nview h2
    have haa' : Agree (A.d.mview t.1.1) (A.d.nview t.1.2) a a' := by cases k <;> exact haa
    have p1 : 0 < A.d.mview t.1.1 := by rw [e1]; exact tdim_pos hb ((lt_ceilDiv hb).mpr (by rwa [hal.lt_mt] at h1))
    cases k
    · exact langeMax_congr haa'
    · obtain ⟨-, hr0, hr⟩ : c = _ ∧ t.1.2 * b ≤ r ∧ r < t.1.2 * b + A.d.nview t.1.2 := hR
      exact langeAuxOne_congr (k := r - t.1.2 * b) p1 haa' (by omega)
    · obtain ⟨-, -, hr⟩ : c = _ ∧ t.1.1 * b ≤ r ∧ r < t.1.1 * b + A.d.mview t.1.1 := hR
      exact langeAuxInf_congr (k := r - t.1.1 * b) haa' (by omega)
    · show (if c = t.1.2 then _ else _) = (if c = t.1.2 then _ else _)
      rw [gessq_congr haa']
  · intro t ht r c hR
    obtain ⟨⟨h1, h2⟩, h3, h4, h5⟩ := hL t ht
    have e1 := hal.mview h1
    have e2 := hal.nview h2
    rw [hW1, hW2]
    cases k
    · obtain ⟨rfl, rfl⟩ := hR
      exact ⟨Nat.zero_lt_one, (zipIdx_mem ht).2⟩
    · obtain ⟨rfl, h6, h7⟩ : c = t.1.1 - lbS A.d t.1.2 ∧ t.1.2 * b ≤ r ∧ r < t.1.2 * b + A.d.nview t.1.2 := hR
      refine ⟨?_, h5⟩
      rw [e2] at h7
      have := tdim_end (m := A.d.n) (b := b) (k := t.1.2) (i := r - t.1.2 * b) (by omega)
      show r < A.d.n
      omega
    · obtain ⟨rfl, h6, h7⟩ : c = t.1.2 ∧ t.1.1 * b ≤ r ∧ r < t.1.1 * b + A.d.mview t.1.1 := hR
      refine ⟨?_, h2⟩
      rw [e1] at h7
      have h8 : tdim A.d.m b t.1.1 ≤ b := tdim_le
      have h9 : (t.1.1 + 1) * b ≤ A.d.mt * b := Nat.mul_le_mul_right _ h1
      rw [Nat.add_mul] at h9
      show r < b * A.d.mt
      rw [Nat.mul_comm b]
      omega
    · obtain ⟨rfl, h6⟩ : r = t.1.1 - lbS A.d t.1.2 ∧ (c = t.1.2 ∨ c = A.d.nt + t.1.2) := hR
      refine ⟨h5, ?_⟩
      show c < 2 * A.d.nt
      omega
  · intro t ht t' ht' r c hR hR'
    obtain ⟨⟨h1, h2⟩, h3, h4, -⟩ := hL t ht
    obtain ⟨⟨h1', h2'⟩, h3', h4', -⟩ := hL t' ht'
    have key : t.1.1 = t'.1.1 → t.1.2 = t'.1.2 → t = t' := fun e1 e2 =>
      zipIdx_inj nodup_lbTiles ht ht' (Prod.ext e1 e2)
    cases k
    · exact zipIdx_inj' ht ht' (hR.2.symm.trans hR'.2)
    · obtain ⟨hc, hr⟩ : c = t.1.1 - lbS A.d t.1.2 ∧ t.1.2 * b ≤ r ∧ r < t.1.2 * b + A.d.nview t.1.2 := hR
      obtain ⟨hc', hr'⟩ : c = t'.1.1 - lbS A.d t'.1.2 ∧ t'.1.2 * b ≤ r ∧ r < t'.1.2 * b + A.d.nview t'.1.2 := hR'
      rw [hal.nview h2] at hr
      rw [hal.nview h2'] at hr'
      have e := blk_row hr hr'
      refine key ?_ e
      rw [← e] at hc' h4'
      omega
    · obtain ⟨hc, hr⟩ : c = t.1.2 ∧ t.1.1 * b ≤ r ∧ r < t.1.1 * b + A.d.mview t.1.1 := hR
      obtain ⟨hc', hr'⟩ : c = t'.1.2 ∧ t'.1.1 * b ≤ r ∧ r < t'.1.1 * b + A.d.mview t'.1.1 := hR'
      rw [hal.mview h1] at hr
      rw [hal.mview h1'] at hr'
      exact key (blk_row hr hr') (hc.symm.trans hc')
    · obtain ⟨hr, hc⟩ : r = t.1.1 - lbS A.d t.1.2 ∧ (c = t.1.2 ∨ c = A.d.nt + t.1.2) := hR
      obtain ⟨hr', hc'⟩ : r = t'.1.1 - lbS A.d t'.1.2 ∧ (c = t'.1.2 ∨ c = A.d.nt + t'.1.2) := hR'
      have e : t.1.2 = t'.1.2 := by omega
      refine key ?_ e
      rw [← e] at hr' h4'
      omega

theorem langbRed_congr {k : NormK} {w w' : Nat → Nat → ℝ}
    (h : ∀ r c, r < (lbWork k (bandR id b lm m n kl ku).d).1 → c < (lbWork k (bandR id b lm m n kl ku).d).2 → w r c = w' r c) :
    langbRed k (bandR id b lm m n kl ku).d w = langbRed k (bandR id b lm m n kl ku).d w' := by
  set D := (bandR id b lm m n kl ku).d with hD
  cases k
  · exact maxOf_congr (w := fun p q => |w p q|) (w' := fun p q => |w' p q|) fun p hp => by
      rw [h _ _ (mem_allPos.mp hp).1 (mem_allPos.mp hp).2]
  · exact infNorm_congr fun i hi k hk => h _ _ hi hk
  · exact infNorm_congr fun i hi k hk => h _ _ hi hk
  · refine gessqAux_congr fun i hi => ?_
    have hl : 0 < lbLd D := Nat.succ_pos _
    have h1 : i / lbLd D < D.nt := Nat.div_lt_of_lt_mul hi
    refine ⟨h _ _ (Nat.mod_lt _ hl) (by show _ < 2 * D.nt; omega), h _ _ (Nat.mod_lt _ hl) ?_⟩
    rw [Nat.mul_add_div hl]
    show _ < 2 * D.nt
    omega

/-- The reductions give the norm of the part of the matrix in the visited tiles. -/
theorem langb_value {lsq : ℝ × ℝ → List 𝕜 → ℝ × ℝ} (hlsq : IsLassq lsq) {junk : Nat → ℝ} {k : NormK} (hb : 0 < b)
    (hm : 0 < m) (hn : 0 < n) {a : Nat → Nat → ℝ} {G : Nat → Nat → 𝕜}
    (ha : ∀ t ∈ (lbTiles (bandR id b lm m n kl ku).d).zipIdx, ∀ r c,
      (langbBlk (𝕜 := 𝕜) lsq junk k (bandR id b lm m n kl ku).d t).R r c →
      a r c = (langbBlk lsq junk k (bandR id b lm m n kl ku).d t).g (tileOf b G t.1.1 t.1.2) r c)
    (hz : k ≠ .max → ∀ r c, (∀ t ∈ (lbTiles (bandR id b lm m n kl ku).d).zipIdx,
      ¬ (langbBlk (𝕜 := 𝕜) lsq junk k (bandR id b lm m n kl ku).d t).R r c) → a r c = 0) :
    NormOf k m n (fun r c => if bandTile b kl ku (r / b) (c / b) then ‖G r c‖ else 0)
      (langbRed k (bandR id b lm m n kl ku).d a) := by
  have hal := bandR_al id hb lm m n kl ku
  set A := bandR id b lm m n kl ku with hA
  have hL : ∀ {p q}, (p, q) ∈ lbTiles A.d ↔ p * b < m ∧ q * b < n ∧ bandTile b kl ku p q := mem_lbTiles hb hm
  have hidx : ∀ {x}, x ∈ lbTiles A.d → ∃ i, (x, i) ∈ (lbTiles A.d).zipIdx := by
    intro x hx
    obtain ⟨i, hi, e⟩ := List.getElem_of_mem hx
    exact ⟨i, List.mem_zipIdx_iff_getElem?.mpr (List.getElem?_eq_some_iff.mpr ⟨hi, e⟩)⟩
  have hmt : A.d.mt = ceilDiv m b := hal.mt_eq
  have hnt : A.d.nt = ceilDiv n b := hal.nt_eq
  have hmv : ∀ {p}, p * b < m → A.d.mview p = tdim m b p := fun {p} h => hal.mview (by rw [hal.lt_mt]; exact h)
  have hnv : ∀ {p}, p * b < n → A.d.nview p = tdim n b p := fun {p} h => hal.nview (by rw [hal.lt_nt]; exact h)
  have hpos : ∀ {m p : Nat}, p * b < m → 0 < tdim m b p := fun h => tdim_pos hb ((lt_ceilDiv hb).mpr h)
  set F : Nat → Nat → ℝ := fun r c => if bandTile b kl ku (r / b) (c / b) then ‖G r c‖ else 0 with hF
  have hF0 : ∀ r c, 0 ≤ F r c := fun r c => by
    simp only [hF]; split
    · exact norm_nonneg _
    · exact le_rfl
  have ed : ∀ {p i : Nat}, i < b → (p * b + i) / b = p := fun {p i} h => by
    rw [Nat.mul_comm, Nat.mul_add_div hb, Nat.div_eq_of_lt h, Nat.add_zero]
  have hFt : ∀ {p q i j : Nat}, i < b → j < b →
      F (p * b + i) (q * b + j) = if bandTile b kl ku p q then ‖G (p * b + i) (q * b + j)‖ else 0 := by
    intro p q i j hi hj
    simp only [hF]; rw [ed hi, ed hj]
  cases k
  · refine normOf_max hm hn hF0 fun x => ?_
    show maxOf (allPos 1 (lbTiles A.d).length) (fun p q => |a p q|) ≤ x ↔ _
    rw [maxOf_le, ← tiles_forall hb (P := fun r c => F r c ≤ x)]
    refine and_congr_right fun hx => ⟨fun h p hp q hq i hi j hj => ?_, fun h p hp => ?_⟩
    · have hi' := (tdim_row.mp hi).1
      have hj' := (tdim_row.mp hj).1
      rw [hFt hi' hj']
      split
      · rename_i ht
        obtain ⟨w, hw⟩ := hidx (hL.mpr ⟨(lt_ceilDiv hb).mp hp, (lt_ceilDiv hb).mp hq, ht⟩)
        have h1 := h (0, w) (mem_allPos.mpr ⟨Nat.zero_lt_one, (zipIdx_mem hw).2⟩)
        rw [ha _ hw 0 w ⟨rfl, rfl⟩] at h1
        have h2 := le_trans (le_abs_self _) h1
        exact (langeMax_le.mp h2).2 i (by rw [hmv ((lt_ceilDiv hb).mp hp)]; exact hi) j
          (by rw [hnv ((lt_ceilDiv hb).mp hq)]; exact hj)
      · exact hx
    · obtain ⟨h1, h2⟩ := mem_allPos.mp hp
      obtain ⟨p1, w⟩ := p
      simp only [Nat.lt_one_iff] at h1
      subst h1
      have hw : ((lbTiles A.d)[w], w) ∈ (lbTiles A.d).zipIdx :=
        List.mem_zipIdx_iff_getElem?.mpr (List.getElem?_eq_some_iff.mpr ⟨h2, rfl⟩)
      have hm' := List.getElem_mem h2
      generalize (lbTiles A.d)[w] = t at hw hm'
      obtain ⟨p, q⟩ := t
      obtain ⟨t1, t2, t3⟩ := hL.mp hm'
      show |a 0 w| ≤ x
      rw [ha _ hw 0 w ⟨rfl, rfl⟩]
      show |langeMax _ _ _| ≤ x
      rw [abs_of_nonneg (show 0 ≤ langeMax _ _ _ from maxOf_nonneg _ _), langeMax_le]
      refine ⟨hx, fun i hi j hj => ?_⟩
      change i < A.d.mview p at hi
      change j < A.d.nview q at hj
      rw [hmv t1] at hi
      rw [hnv t2] at hj
      have := h p ((lt_ceilDiv hb).mpr t1) q ((lt_ceilDiv hb).mpr t2) i hi j hj
      rw [hFt (tdim_row.mp hi).1 (tdim_row.mp hj).1, if_pos t3] at this
      exact this
  · refine normOf_one hn hF0 fun x => ?_
    show infNorm n (lbLd A.d) a ≤ x ↔ _
    rw [infNorm_le]
    refine and_congr_right fun _ => forall_congr' fun c => imp_congr_right fun hc => ?_
    obtain ⟨c1, c2, c3, c4⟩ := row_split hb hc
    have c1' := (lt_ceilDiv hb).mp c1
    have dc := divmod c b
    have hcb := Nat.mod_lt c hb
    have key : ∑ k ∈ range (lbLd A.d), |a c k| = ∑ r ∈ range m, F r c := by
      rw [← sum_tiles hb (fun r => F r c), ← lb_sum (kl := kl) (ku := ku) (q := c / b) hb hm]
      · refine Finset.sum_congr rfl fun k hk => ?_
        split
        · rename_i hlt
          obtain ⟨t1, t2, t3⟩ := (mem_k hb hm).mp (show kStart b ku (c / b) ≤ kStart b ku (c / b) + k ∧ _ from ⟨by omega, hlt⟩)
          rw [lt_ceilDiv hb] at t1
          have ht := hL.mpr ⟨t1, c1', t3, t2⟩
          obtain ⟨w, hw⟩ := hidx ht
          have := ha _ hw c k ⟨(Nat.add_sub_cancel_left (n := kStart b ku (c / b)) (m := k)).symm, c2, by
            show c < c / b * b + A.d.nview (c / b)
            rw [hnv c1']; exact c3⟩
          rw [this]
          show |langeAuxOne (A.d.mview _) (A.d.nview (c / b)) _ _ (c - c / b * b)| = _
          rw [c4, langeAuxOne_eq (by rw [hmv t1]; exact hpos t1) (by rw [hnv c1']; omega), hmv t1,
            abs_of_nonneg (Finset.sum_nonneg fun i _ => norm_nonneg _)]
          refine Finset.sum_congr rfl fun i hi => ?_
          have := (tdim_row.mp (mem_range.mp hi)).1
          have e := hFt (p := kStart b ku (c / b) + k) (q := c / b) this hcb
          rw [if_pos ⟨t3, t2⟩, dc] at e
          show ‖G _ (c / b * b + c % b)‖ = _
          rw [dc]; exact e.symm
        · rename_i hlt
          rw [hz (by simp) c k ?_, abs_zero]
          rintro t ht ⟨h1, h2⟩
          have ht' := mem_colPairs.mp (zipIdx_mem ht).1
          rw [mem_span] at ht'
          change t.1.2 * b ≤ c ∧ c < t.1.2 * b + A.d.nview t.1.2 at h2
          rw [hal.nview ht'.1] at h2
          have e := blk_row h2 ⟨c2, c3⟩
          have h3 := ht'.2
          change kStart b ku t.1.2 ≤ t.1.1 ∧ t.1.1 < kEnd b m kl t.1.2 + 1 at h3
          change k = t.1.1 - kStart b ku t.1.2 at h1
          rw [e] at h3 h1
          omega
      · intro p hp
        refine Finset.sum_eq_zero fun i hi => ?_
        have := hFt (p := p) (q := c / b) (tdim_row.mp (mem_range.mp hi)).1 hcb
        rw [if_neg hp, dc] at this
        exact this
    rw [key]
  · refine normOf_inf hm hF0 fun x => ?_
    show infNorm (b * A.d.mt) A.d.nt a ≤ x ↔ _
    rw [infNorm_le]
    refine and_congr_right fun hx => ?_
    have key : ∀ r < m, ∑ k ∈ range A.d.nt, |a r k| = ∑ c ∈ range n, F r c := by
      intro r hr
      obtain ⟨c1, c2, c3, c4⟩ := row_split hb hr
      have c1' := (lt_ceilDiv hb).mp c1
      have dc := divmod r b
      have hcb := Nat.mod_lt r hb
      rw [← sum_tiles hb (fun c => F r c), hnt]
      refine Finset.sum_congr rfl fun q hq => ?_
      have hq' := (lt_ceilDiv hb).mp (mem_range.mp hq)
      by_cases ht : bandTile b kl ku (r / b) q
      · obtain ⟨w, hw⟩ := hidx (hL.mpr ⟨c1', hq', ht⟩)
        have := ha _ hw r q ⟨rfl, c2, by
          show r < r / b * b + A.d.mview (r / b)
          rw [hmv c1']; exact c3⟩
        rw [this]
        show |langeAuxInf (A.d.mview (r / b)) (A.d.nview q) _ _ (r - r / b * b)| = _
        rw [c4, langeAuxInf_eq (by rw [hmv c1']; omega), hnv hq',
          abs_of_nonneg (Finset.sum_nonneg fun i _ => norm_nonneg _)]
        refine Finset.sum_congr rfl fun j hj => ?_
        have e := hFt (p := r / b) (q := q) hcb (tdim_row.mp (mem_range.mp hj)).1
        rw [if_pos ht, dc] at e
        show ‖G (r / b * b + r % b) _‖ = _
        rw [dc]; exact e.symm
      · rw [hz (by simp) r q ?_, abs_zero]
        · refine (Finset.sum_eq_zero fun j hj => ?_).symm
          have := hFt (p := r / b) (q := q) hcb (tdim_row.mp (mem_range.mp hj)).1
          rw [if_neg ht, dc] at this
          exact this
        · rintro t ht' ⟨h1, h2⟩
          obtain ⟨t1, t2, t3⟩ := (mem_lbTiles (p := t.1.1) (q := t.1.2) hb hm).mp (zipIdx_mem ht').1
          change t.1.1 * b ≤ r ∧ r < t.1.1 * b + A.d.mview t.1.1 at h2
          rw [hmv t1] at h2
          have e := blk_row h2 ⟨c2, c3⟩
          change q = t.1.2 at h1
          rw [e, ← h1] at t3
          exact ht t3
    constructor
    · intro h r hr
      rw [← key r hr]
      refine h r ?_
      obtain ⟨c1, c2, c3, c4⟩ := row_split hb hr
      have := Nat.mul_le_mul_left b (show r / b + 1 ≤ A.d.mt by rw [hmt]; exact c1)
      have hcb := Nat.mod_lt r hb
      rw [Nat.mul_add, Nat.mul_comm b (r / b)] at this
      omega
    · intro h r hr
      by_cases hrm : r < m
      · rw [key r hrm]; exact h r hrm
      · refine le_trans (le_of_eq (Finset.sum_eq_zero fun q hq => ?_)) hx
        rw [hz (by simp) r q ?_, abs_zero]
        rintro t ht' ⟨h1, h2⟩
        obtain ⟨t1, t2, t3⟩ := (mem_lbTiles (p := t.1.1) (q := t.1.2) hb hm).mp (zipIdx_mem ht').1
        change t.1.1 * b ≤ r ∧ r < t.1.1 * b + A.d.mview t.1.1 at h2
        rw [hmv t1] at h2
        have := tdim_end (m := m) (b := b) (k := t.1.1) (i := r - t.1.1 * b) (by omega)
        omega
  · show gessqAux (lbLd A.d * A.d.nt) _ _ = _
    have hl : 0 < lbLd A.d := Nat.succ_pos _
    set T : Nat → Nat → ℝ := fun p q => ∑ j ∈ range (tdim n b q), ∑ l ∈ range (tdim m b p), F (p * b + l) (q * b + j) ^ 2 with hT
    have h1 : ∀ i < lbLd A.d * A.d.nt, Ssq (a (i % lbLd A.d) (i / lbLd A.d),
        a ((lbLd A.d * A.d.nt + i) % lbLd A.d) ((lbLd A.d * A.d.nt + i) / lbLd A.d))
        (if kStart b ku (i / lbLd A.d) + i % lbLd A.d < kEnd b m kl (i / lbLd A.d) + 1
          then T (kStart b ku (i / lbLd A.d) + i % lbLd A.d) (i / lbLd A.d) else 0) := by
      intro i hi
      rw [Nat.mul_add_mod, Nat.mul_add_div hl]
      have hq : i / lbLd A.d < A.d.nt := Nat.div_lt_of_lt_mul hi
      generalize i / lbLd A.d = q at *
      generalize i % lbLd A.d = e at *
      have hq' : q * b < n := by rwa [hal.lt_nt] at hq
      split
      · rename_i hlt
        obtain ⟨t1, t2, t3⟩ := (mem_k hb hm).mp (show kStart b ku q ≤ kStart b ku q + e ∧ _ from ⟨by omega, hlt⟩)
        rw [lt_ceilDiv hb] at t1
        obtain ⟨w, hw⟩ := hidx (hL.mpr ⟨t1, hq', t3, t2⟩)
        have he : e = kStart b ku q + e - lbS A.d q := (Nat.add_sub_cancel_left (n := kStart b ku q) (m := e)).symm
        have s1 := ha _ hw e q ⟨he, Or.inl rfl⟩
        have s2 := ha _ hw e (A.d.nt + q) ⟨he, Or.inr rfl⟩
        rw [s1, s2]
        show Ssq ((if _ then _ else _), (if _ then _ else _)) _
        rw [if_pos rfl, if_neg (by show ¬ (A.d.nt + q = q); omega)]
        show Ssq (gessq lsq (A.d.mview _) (A.d.nview q) _) _
        rw [hmv t1, hnv hq']
        have := gessq_eq hlsq (m := tdim m b (kStart b ku q + e)) (n := tdim n b q)
          (a := tileOf b G (kStart b ku q + e) q)
        refine cast (congrArg _ ?_) this
        simp only [hT]
        refine Finset.sum_congr rfl fun j hj => Finset.sum_congr rfl fun i hi => ?_
        rw [hFt (tdim_row.mp (mem_range.mp hi)).1 (tdim_row.mp (mem_range.mp hj)).1, if_pos ⟨t3, t2⟩]
        rfl
      · rename_i hlt
        have hn0 : ∀ c, c = q ∨ c = A.d.nt + q → a e c = 0 := by
          intro c hc
          refine hz (by simp) e c ?_
          rintro t ht ⟨h1, h2⟩
          have ht' := mem_colPairs.mp (zipIdx_mem ht).1
          rw [mem_span] at ht'
          have h3 := ht'.2
          have h4 := ht'.1
          change kStart b ku t.1.2 ≤ t.1.1 ∧ t.1.1 < kEnd b m kl t.1.2 + 1 at h3
          change e = t.1.1 - kStart b ku t.1.2 at h1
          change c = t.1.2 ∨ c = A.d.nt + t.1.2 at h2
          have e : t.1.2 = q := by omega
          rw [e] at h3 h1
          omega
        rw [hn0 _ (Or.inl rfl), hn0 _ (Or.inr rfl)]
        exact ⟨le_rfl, le_rfl, by simp⟩
    rw [gessqAux_eq h1, sum_linear (fun e q => if kStart b ku q + e < kEnd b m kl q + 1 then T (kStart b ku q + e) q else 0),
      hnt, ← sum_tiles2 hb (fun r c => F r c ^ 2)]
    congr 1
    refine Finset.sum_congr rfl fun q _ => ?_
    refine lb_sum (T := fun p => T p q) hb hm fun p hp => ?_
    change ¬ bandTile b kl ku p q at hp
    simp only [hT]
    refine Finset.sum_eq_zero fun j hj => Finset.sum_eq_zero fun i hi => ?_
    rw [hFt (tdim_row.mp (mem_range.mp hi)).1 (tdim_row.mp (mem_range.mp hj)).1, if_neg hp]
    norm_num

end blk

end

end Verif.Props

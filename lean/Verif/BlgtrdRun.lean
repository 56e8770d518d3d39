/-
The threads of `plasma_pzlarft_blgtrd` and `plasma_pzunmqr_blgtrd`.
-/
import Verif.BlgtrdKern

namespace Verif.Blg

open Verif.Layout Verif.Qr Verif.Sched Finset Matrix

universe v

section
variable {α : Type v} [CommRing α] [StarRing α]

/-- Interleavings of the programs of `P` threads: every thread runs its own program in order. -/
def Inter {ι : Type} (P : Nat) (prog : Nat → List ι) (sch : List (Nat × ι)) : Prop :=
  (∀ x ∈ sch, x.1 < P) ∧ ∀ t, t < P → (sch.filter fun x => decide (x.1 = t)).map (·.2) = prog t

/-! ### `plasma_pzlarft_blgtrd` -/

/-- `blkpercore` (compute/pzlarft_blgtrd.c:67-69). -/
def bpc (N NB V P : Nat) : Nat := if blkcnt N NB V / P = 0 then 1 else blkcnt N NB V / P

/-- The blocks of thread `t` of `P` (compute/pzlarft_blgtrd.c:55-113); `sequence->status` is success. -/
def larftProg (N NB V P t : Nat) : List (Nat × Nat) :=
  if N = 0 ∨ NB = 0 ∨ NB = 1 then [] else (diamonds N NB V).filter fun b => decide (t = bid N NB V b / bpc N NB V P % P)

/-- `V(vpos)` with leading dimension `LDV` (compute/pzlarft_blgtrd.c:105-112). -/
def vblk (N NB V : Nat) (Va : Nat → α) (b : Nat × Nat) (i l : Nat) : α := Va (vpos N NB V (b.1 * V) (myrow NB V b) + i + l * ldv NB V)

/-- `T(tpos)` with leading dimension `LDT = Vblksiz`. -/
def tblk (N NB V : Nat) (T : Nat → α) (b : Nat × Nat) (i l : Nat) : α := T (tpos N NB V (b.1 * V) (myrow NB V b) + i + l * V)

/-- `TAU(taupos)`. -/
def taublk (N NB V : Nat) (Ta : Nat → α) (b : Nat × Nat) (l : Nat) : α := Ta (taupos N NB V (b.1 * V) (myrow NB V b) + l)

/-- The call of `LAPACKE_zlarft_work` for one block (compute/pzlarft_blgtrd.c:108-113): the upper triangle of `T(tpos)` is written. -/
def larftBlk (N NB V : Nat) (Va Ta : Nat → α) (b : Nat × Nat) (T : Nat → α) : Nat → α := fun x =>
  if 0 < vm N NB V b ∧ 0 < vn N NB V b ∧ tpos N NB V (b.1 * V) (myrow NB V b) ≤ x ∧
      (x - tpos N NB V (b.1 * V) (myrow NB V b)) % V ≤ (x - tpos N NB V (b.1 * V) (myrow NB V b)) / V ∧
      (x - tpos N NB V (b.1 * V) (myrow NB V b)) / V < vn N NB V b then
    larft (vm N NB V b) (vblk N NB V Va b) (taublk N NB V Ta b) (vn N NB V b)
      ((x - tpos N NB V (b.1 * V) (myrow NB V b)) % V) ((x - tpos N NB V (b.1 * V) (myrow NB V b)) / V)
  else T x

/-- Executions of `plasma_pzlarft_blgtrd` by `P` threads. A call of `zlarft` is one step: it reads `V` and `TAU`, which nobody writes, and writes a place of `T`
that no other call touches. -/
def LarftExec (N NB V P : Nat) (Va Ta T T' : Nat → α) : Prop :=
  ∃ sch, Inter P (larftProg N NB V P) sch ∧ T' = execL (sch.map fun x => larftBlk N NB V Va Ta x.2) T

/-! ### `plasma_pzunmqr_blgtrd` -/

/-- `colpercore` (compute/pzunmqr_blgtrd.c:127-144), `WANTZ != 1`. -/
def colpc (NE P : Nat) : Nat :=
  let c := ceilDiv NE P
  let c := if 1000 < c then ceilDiv c 10 else if 800 < c then ceilDiv c 8 else if 600 < c then ceilDiv c 6 else
    if 400 < c then ceilDiv c 4 else if 200 < c then ceilDiv c 2 else c
  let c := if 200 < c then 120 else c
  if c < 30 then 32 else c

/-- `nbchunk` (compute/pzunmqr_blgtrd.c:146). -/
def nchunk (NE P : Nat) : Nat := ceilDiv NE (colpc NE P)

/-- `allcoresnb` (compute/pzunmqr_blgtrd.c:147-152). -/
def allc (NE P : Nat) : Nat := min P (max 1 (nchunk NE P))

/-- Chunks and blocks of thread `t` of `P` (compute/pzunmqr_blgtrd.c:64-72,159-205,301-372), `WANTZ != 1`; `versionL` is always 113. -/
def unmProg (N NB V NE P t : Nat) : List (Nat × (Nat × Nat)) :=
  if N = 0 ∨ NB = 0 ∨ NE = 0 ∨ NB = 1 then [] else
    ((List.range (nchunk NE P)).filter fun c => decide (t = c % allc NE P)).flatMap fun c => (diamonds N NB V).map fun b => (c, b)

/-- One block applied to one chunk (compute/pzunmqr_blgtrd.c:348-365); `corelen` is the number of columns (rows) in the chunk. -/
def unmAct (left ct : Bool) (N NB V NE P : Nat) (Va T : Nat → α) (a : Nat × (Nat × Nat)) (E : Nat → Nat → α) : Nat → Nat → α :=
  if 0 < vm N NB V a.2 ∧ 0 < vn N NB V a.2 then
    if left then larfbAt true ct (myrow NB V a.2) (a.1 * colpc NE P) (vm N NB V a.2) (tdim NE (colpc NE P) a.1) (vn N NB V a.2)
      (vblk N NB V Va a.2) (tblk N NB V T a.2) E
    else larfbAt false ct (a.1 * colpc NE P) (myrow NB V a.2) (tdim NE (colpc NE P) a.1) (vm N NB V a.2) (vn N NB V a.2)
      (vblk N NB V Va a.2) (tblk N NB V T a.2) E
  else E

/-- Executions of `plasma_pzunmqr_blgtrd` by `P` threads with `WANTZ = 2`. The application of a block to a chunk is one step: chunks are disjoint, a chunk
belongs to one thread, `V` and `T` are not written and the workspace is the thread's own. -/
def UnmExec (left ct : Bool) (N NB V NE P : Nat) (Va T : Nat → α) (E E' : Nat → Nat → α) : Prop :=
  ∃ sch, Inter P (unmProg N NB V NE P) sch ∧ E' = execL (sch.map fun x => unmAct left ct N NB V NE P Va T x.2) E

/-! ### Contents of the arrays -/

/-- What the bulge chasing leaves in an array that was cleared before (compute/zgesdd.c:503-518; the kernels store a one and the rest of the reflector):
all places that belong to no reflector are zero. -/
structure Stored (N NB V : Nat) (Va : Nat → α) : Prop where
  one : ∀ s q, IsRefl N NB s q → Va (vpos N NB V s (rst NB s q)) = 1
  zero : ∀ x, (∀ s q k, IsRefl N NB s q → k < NB → x ≠ vpos N NB V s (rst NB s q) + k) → Va x = 0

/-- Reflector `q` of sweep `s` as a vector of length `N`. -/
def wvec (N NB V : Nat) (Va : Nat → α) (s q r : Nat) : α :=
  if rst NB s q ≤ r ∧ r < rst NB s q + NB then Va (vpos N NB V s (rst NB s q) + (r - rst NB s q)) else 0

/-- Its scalar. -/
def wtau (N NB V : Nat) (Ta : Nat → α) (s q : Nat) : α := Ta (taupos N NB V s (rst NB s q))

/-- The product of all reflectors, sweep by sweep. -/
def bulgeQ (N NB V : Nat) (Va Ta : Nat → α) : Matrix (Fin N) (Fin N) α :=
  ((refls N NB).map fun a => refl N (wvec N NB V Va a.1 a.2) (wtau N NB V Ta a.1 a.2)).prod

section
variable {N NB V : Nat} {Va Ta : Nat → α} {b : Nat × Nat}

theorem mod_add {j l : Nat} (hl : l < V) : (j * V + l) % V = l ∧ (j * V + l) / V = j := by
  constructor
  · rw [Nat.mul_comm, Nat.mul_add_mod, Nat.mod_eq_of_lt hl]
  · rw [Nat.mul_comm, Nat.mul_add_div (by omega), Nat.div_eq_of_lt hl]; rfl

theorem blk_col (hNB : 0 < NB) {l : Nat} (hl : l < V) : blkid N NB V (b.1 * V + l) (rst NB (b.1 * V + l) b.2) = bid N NB V b := by
  rw [blkid_refl hNB, bid_eq hNB (by omega), (mod_add hl).2]

theorem base_mod (hV : 0 < V) : b.1 * V % V = 0 := Nat.mul_mod_left _ _

theorem vpos_col (hNB : 0 < NB) {l : Nat} (hl : l < V) :
    vpos N NB V (b.1 * V + l) (rst NB (b.1 * V + l) b.2) = vpos N NB V (b.1 * V) (myrow NB V b) + l + l * ldv NB V := by
  unfold vpos
  rw [blk_col hNB hl, (mod_add hl).1, Nat.mul_mod_left]
  show _ = bid N NB V b * V * ldv NB V + 0 * ldv NB V + 0 + l + l * ldv NB V
  omega

theorem taupos_col (hNB : 0 < NB) {l : Nat} (hl : l < V) :
    taupos N NB V (b.1 * V + l) (rst NB (b.1 * V + l) b.2) = taupos N NB V (b.1 * V) (myrow NB V b) + l := by
  unfold taupos
  rw [blk_col hNB hl, (mod_add hl).1, Nat.mul_mod_left]
  rfl

/-- Two-digit numbers. -/
theorem digits {d a a' i i' : Nat} (hi : i < d) (hi' : i' < d) (h : a * d + i = a' * d + i') : a = a' ∧ i = i' := by
  have h1 := mod_add (j := a) hi
  have h2 := mod_add (j := a') hi'
  rw [h] at h1
  exact ⟨h1.2.symm.trans h2.2, h1.1.symm.trans h2.1⟩

/-- Places next to a reflector in a block are zero. -/
theorem blk_zero (hNB : 0 < NB) (hV : 0 < V) (hs : Stored N NB V Va) {i l : Nat} (hl : l < V) (hi : i < ldv NB V) (h : i < l ∨ l + NB ≤ i) :
    vblk N NB V Va b i l = 0 := by
  unfold vblk
  refine hs.zero _ fun s q k hr hk e => ?_
  have h1 : s % V < V := Nat.mod_lt _ hV
  have h2 : s % V + k < ldv NB V := by unfold ldv; omega
  have e1 : (bid N NB V b * V + l) * ldv NB V + i = (blkid N NB V s (rst NB s q) * V + s % V) * ldv NB V + (s % V + k) := by
    unfold vpos at e
    rw [Nat.mul_mod_left] at e
    have : blkid N NB V (b.1 * V) (myrow NB V b) = bid N NB V b := rfl
    rw [this] at e
    rw [Nat.add_mul, Nat.add_mul]
    omega
  obtain ⟨e2, e3⟩ := digits hi h2 e1
  obtain ⟨-, e4⟩ := digits hl h1 e2
  omega

theorem vm_row (hb : b ∈ diamonds N NB V) (hNB : 0 < NB) (hV : 0 < V) : myrow NB V b + vm N NB V b ≤ N := by
  have h1 := mem_diamonds.mp hb
  have h2 := (lt_ntB (N := N) hV).mp h1.1
  have h3 : b.2 * NB < N - (b.1 * V + 1) := by
    have := h1.2
    unfold mtB at this
    split at this
    · exact (lt_ceilDiv hNB).mp this
    · have := (lt_ceilDiv hNB).mp this
      omega
  unfold vm myrow
  omega

/-- The columns of a block are the reflectors. -/
theorem emb_wvec (hNB : 2 ≤ NB) (hV : 0 < V) (hs : Stored N NB V Va) {l r : Nat} (hl : l < vn N NB V b) (hr : r < N) :
    emb (myrow NB V b) (vm N NB V b) (vblk N NB V Va b) r l = wvec N NB V Va (b.1 * V + l) b.2 r := by
  have hlV : l < V := lt_of_lt_of_le hl (vn_le b)
  have e : rst NB (b.1 * V + l) b.2 = myrow NB V b + l := by unfold rst myrow; omega
  unfold emb wvec
  rw [e]
  by_cases h : myrow NB V b + l ≤ r ∧ r < myrow NB V b + l + NB
  · rw [if_pos h, if_pos (by unfold vm; omega), ← e, vpos_col (by omega) hlV, e]
    unfold vblk
    congr 1
    omega
  · rw [if_neg h]
    split
    · exact blk_zero (by omega) hV hs hlV (by unfold vm at *; unfold ldv; omega) (by omega)
    · rfl

theorem unit_blk (hNB : 2 ≤ NB) (hV : 0 < V) (hs : Stored N NB V Va) (hb : b ∈ diamonds N NB V) {i l : Nat} (hl : l < vn N NB V b) (hi : i < vm N NB V b) :
    unitLow (vblk N NB V Va b) i l = vblk N NB V Va b i l := by
  have hlV : l < V := lt_of_lt_of_le hl (vn_le b)
  unfold unitLow
  split
  · rename_i h
    subst h
    have h1 := hs.one _ _ ((lt_vn (j := b.1) (q := b.2) hNB hV (mem_diamonds.mp hb).1).mp hl).2
    rw [vpos_col (by omega) hlV] at h1
    exact h1.symm
  · split
    · rfl
    · exact (blk_zero (by omega) hV hs hlV (by unfold vm at hi; unfold ldv; omega) (by omega)).symm

/-! ### The `T` factors -/

theorem larftBlk_at {T : Nat → α} (hV : 0 < V) {i l : Nat} (hil : i ≤ l) (hl : l < vn N NB V b) (hm : 0 < vm N NB V b) :
    tblk N NB V (larftBlk N NB V Va Ta b T) b i l = larft (vm N NB V b) (vblk N NB V Va b) (taublk N NB V Ta b) (vn N NB V b) i l := by
  have hlV : l < V := lt_of_lt_of_le hl (vn_le b)
  unfold tblk larftBlk
  have e : tpos N NB V (b.1 * V) (myrow NB V b) + i + l * V - tpos N NB V (b.1 * V) (myrow NB V b) = l * V + i := by omega
  obtain ⟨e1, e2⟩ := mod_add (j := l) (V := V) (l := i) (by omega)
  rw [e, e1, e2, if_pos ⟨hm, by omega, by omega, hil, hl⟩]

theorem larftBlk_off {T : Nat → α} (hNB : 0 < NB) (hV : 0 < V) {b' : Nat × Nat} (hb : b ∈ diamonds N NB V) (hb' : b' ∈ diamonds N NB V) (hne : b' ≠ b) {i l : Nat}
    (hi : i < V) (hl : l < V) : tblk N NB V (larftBlk N NB V Va Ta b' T) b i l = tblk N NB V T b i l := by
  unfold tblk larftBlk
  refine if_neg ?_
  rintro ⟨-, -, h1, -, h2⟩
  have h3 : (tpos N NB V (b.1 * V) (myrow NB V b) + i + l * V - tpos N NB V (b'.1 * V) (myrow NB V b')) / V < V := lt_of_lt_of_le h2 (vn_le b')
  rw [Nat.div_lt_iff_lt_mul hV] at h3
  have e : ∀ b : Nat × Nat, tpos N NB V (b.1 * V) (myrow NB V b) = bid N NB V b * (V * V) := by
    intro b
    unfold tpos
    rw [Nat.mul_mod_left, Nat.zero_mul, Nat.add_zero, Nat.mul_assoc]
    rfl
  rw [e, e] at h1 h3
  have h4 : i + l * V < V * V := by
    have : l * V + V ≤ V * V := by rw [← Nat.succ_mul]; exact Nat.mul_le_mul_right _ hl
    omega
  refine hne (bid_inj hNB hV hb' hb ?_)
  exact (digits (d := V * V) (i := bid N NB V b * (V * V) + i + l * V - bid N NB V b' * (V * V)) (by omega) h4 (by omega)).1

theorem larft_sch (hNB : 0 < NB) (hV : 0 < V) (hb : b ∈ diamonds N NB V) {i l : Nat} (hil : i ≤ l) (hl : l < vn N NB V b) (hm : 0 < vm N NB V b) :
    ∀ (L : List (Nat × (Nat × Nat))) (T : Nat → α), (∀ x ∈ L, x.2 ∈ diamonds N NB V) →
      ((∃ x ∈ L, x.2 = b) ∨ tblk N NB V T b i l = larft (vm N NB V b) (vblk N NB V Va b) (taublk N NB V Ta b) (vn N NB V b) i l) →
      tblk N NB V (execL (L.map fun x => larftBlk N NB V Va Ta x.2) T) b i l =
        larft (vm N NB V b) (vblk N NB V Va b) (taublk N NB V Ta b) (vn N NB V b) i l
  | [], T, _, h => by
    rcases h with ⟨x, hx, -⟩ | h
    · exact absurd hx (List.not_mem_nil)
    · exact h
  | x :: L, T, hL, h => by
    rw [List.map_cons, execL_cons]
    have hlV : l < V := lt_of_lt_of_le hl (vn_le b)
    refine larft_sch hNB hV hb hil hl hm L _ (fun y hy => hL y (List.mem_cons_of_mem _ hy)) ?_
    by_cases hx : x.2 = b
    · rw [hx]
      exact Or.inr (larftBlk_at hV hil hl hm)
    · rcases h with ⟨y, hy, e⟩ | h
      · rcases List.mem_cons.mp hy with rfl | hy
        · exact absurd e hx
        · exact Or.inl ⟨y, hy, e⟩
      · exact Or.inr ((larftBlk_off hNB hV hb (hL x (List.mem_cons_self ..)) hx (by omega) hlV).trans h)

theorem inter_mem {ι : Type} {P : Nat} {prog : Nat → List ι} {sch : List (Nat × ι)} (h : Inter P prog sch) {x : Nat × ι} (hx : x ∈ sch) :
    x.1 < P ∧ x.2 ∈ prog x.1 := by
  refine ⟨h.1 x hx, ?_⟩
  rw [← h.2 x.1 (h.1 x hx)]
  exact List.mem_map.mpr ⟨x, List.mem_filter.mpr ⟨hx, by simp⟩, rfl⟩

theorem inter_ex {ι : Type} {P : Nat} {prog : Nat → List ι} {sch : List (Nat × ι)} (h : Inter P prog sch) {t : Nat} (ht : t < P) {a : ι}
    (ha : a ∈ prog t) : ∃ x ∈ sch, x.2 = a := by
  rw [← h.2 t ht] at ha
  obtain ⟨x, hx, e⟩ := List.mem_map.mp ha
  exact ⟨x, (List.mem_filter.mp hx).1, e⟩

/-- After `plasma_pzlarft_blgtrd` every block has its `T`, whatever the number of threads. -/
theorem larft_done (hNB : 2 ≤ NB) (hV : 0 < V) {P : Nat} (hP : 0 < P) {T T' : Nat → α} (h : LarftExec N NB V P Va Ta T T') (hb : b ∈ diamonds N NB V)
    {i l : Nat} (hil : i ≤ l) (hl : l < vn N NB V b) (hm : 0 < vm N NB V b) :
    tblk N NB V T' b i l = larft (vm N NB V b) (vblk N NB V Va b) (taublk N NB V Ta b) (vn N NB V b) i l := by
  obtain ⟨sch, hi, rfl⟩ := h
  have hN : ¬ (N = 0 ∨ NB = 0 ∨ NB = 1) := by
    have := (lt_ntB (N := N) hV).mp (mem_diamonds.mp hb).1
    omega
  refine larft_sch (by omega) hV hb hil hl hm sch T ?_ (Or.inl ?_)
  · intro x hx
    have := (inter_mem hi hx).2
    unfold larftProg at this
    rw [if_neg hN] at this
    exact (List.mem_filter.mp this).1
  · refine inter_ex hi (Nat.mod_lt (bid N NB V b / bpc N NB V P) hP) ?_
    unfold larftProg
    rw [if_neg hN]
    exact List.mem_filter.mpr ⟨hb, by simp⟩

/-- A block applied: the product of its reflectors. -/
theorem blk_prod (hNB : 2 ≤ NB) (hV : 0 < V) (hs : Stored N NB V Va) (hb : b ∈ diamonds N NB V) {T : Nat → α}
    (hT : ∀ i l, i ≤ l → l < vn N NB V b → 0 < vm N NB V b →
      tblk N NB V T b i l = larft (vm N NB V b) (vblk N NB V Va b) (taublk N NB V Ta b) (vn N NB V b) i l) (hm : 0 < vm N NB V b) :
    wyPre N 0 (emb (myrow NB V b) (vm N NB V b) (vblk N NB V Va b)) (tblk N NB V T b) (vn N NB V b) =
      ((List.range (vn N NB V b)).map fun l => refl N (wvec N NB V Va (b.1 * V + l) b.2) (wtau N NB V Ta (b.1 * V + l) b.2)).prod := by
  rw [wyPre_prod]
  · have e := hprod_congr (d := N) (i := vn N NB V b) (w := fun r l => emb (myrow NB V b) (vm N NB V b) (vblk N NB V Va b) r (0 + l))
      (w' := fun r l => wvec N NB V Va (b.1 * V + l) b.2 r) (τ := fun l => tblk N NB V T b l (0 + l)) (τ' := fun l => wtau N NB V Ta (b.1 * V + l) b.2) ?_
    · rw [e]; rfl
    · intro l hl
      constructor
      · intro r hr
        rw [Nat.zero_add]
        exact emb_wvec hNB hV hs hl hr
      · rw [Nat.zero_add, hT l l le_rfl hl hm, larft_diag hl]
        unfold taublk wtau
        rw [taupos_col (by omega) (lt_of_lt_of_le hl (vn_le b))]
  · intro c hc l hl
    rw [Nat.zero_add, hT l c (by omega) hc hm, larft_rec hc hl]
    refine sum_congr rfl fun p hp => ?_
    have hp := mem_range.mp hp
    rw [Nat.zero_add]
    split
    · rename_i hlp
      rw [hT l p hlp (by omega) hm, hT c c le_rfl hc hm, larft_diag hc]
      congr 2
      rw [← sum_emb (vm_row hb (by omega) hV)]
      refine sum_congr rfl fun r _ => ?_
      unfold emb
      split
      · rename_i hr
        rw [unit_blk hNB hV hs hb (by omega) (by omega), unit_blk hNB hV hs hb hc (by omega)]
      · simp
    · rfl

/-- All blocks applied to a vector. -/
theorem diamonds_eq (hNB : 2 ≤ NB) (hV : 0 < V) (x : Fin N → α) :
    execL ((diamonds N NB V).map fun b => (((List.range (vn N NB V b)).map fun l =>
      refl N (wvec N NB V Va (b.1 * V + l) b.2) (wtau N NB V Ta (b.1 * V + l) b.2)).prod).mulVec) x = (bulgeQ N NB V Va Ta).mulVec x := by
  unfold bulgeQ
  rw [← applied_eq (V := V) hNB hV]
  · unfold applied
    generalize diamonds N NB V = D
    induction D generalizing x with
    | nil => rfl
    | cons b D ih =>
      rw [List.map_cons, execL_cons, ih, List.flatMap_cons, List.map_append, execL_append, List.map_map]
      congr 1
      have := execL_mul (fun l => refl N (wvec N NB V Va (b.1 * V + l) b.2) (wtau N NB V Ta (b.1 * V + l) b.2)) (List.range (vn N NB V b)).reverse x
      rw [List.reverse_reverse] at this
      exact this.symm
  · intro s q r h
    exact if_neg h

/-! ### Chunks -/

theorem colpc_pos (NE P : Nat) : 0 < colpc NE P := by
  have h : ∀ c : Nat, 0 < if c < 30 then 32 else c := fun c => by split <;> omega
  exact h _

theorem flat_filter {β : Type} {D : List β} {ch : Nat} : ∀ {l : List Nat}, l.Nodup → ch ∈ l →
    (l.flatMap fun c => D.map fun b => (c, b)).filter (fun a => decide (a.1 = ch)) = D.map fun b => (ch, b)
  | [], _, h => absurd h List.not_mem_nil
  | c :: l, hn, h => by
    have hn' := List.nodup_cons.mp hn
    have hz : ∀ l : List Nat, ch ∉ l → (l.flatMap fun c => D.map fun b => (c, b)).filter (fun a => decide (a.1 = ch)) = [] := by
      intro l hl
      rw [List.filter_eq_nil_iff]
      intro a ha
      simp only [List.mem_flatMap, List.mem_map] at ha
      obtain ⟨c', hc', b, _, rfl⟩ := ha
      simp only [decide_eq_true_eq]
      rintro rfl
      exact hl hc'
    rw [List.flatMap_cons, List.filter_append]
    by_cases hc : c = ch
    · subst hc
      rw [hz l hn'.1, List.append_nil, List.filter_eq_self.mpr]
      intro a ha
      obtain ⟨b, _, rfl⟩ := List.mem_map.mp ha
      simp
    · rw [flat_filter hn'.2 ((List.mem_cons.mp h).resolve_left fun e => hc e.symm), List.filter_eq_nil_iff.mpr, List.nil_append]
      intro a ha
      obtain ⟨b, _, rfl⟩ := List.mem_map.mp ha
      simpa using hc

/-- The part of a schedule that belongs to one chunk is the sequence of all blocks. -/
theorem chunk_seq {NE P : Nat} (hNB : 2 ≤ NB) (hN : N ≠ 0) (hNE : NE ≠ 0) (hP : 0 < P) {sch : List (Nat × (Nat × (Nat × Nat)))}
    (hi : Inter P (unmProg N NB V NE P) sch) {ch : Nat} (hc : ch < nchunk NE P) :
    (sch.filter fun x => decide (x.2.1 = ch)).map (·.2) = (diamonds N NB V).map fun b => (ch, b) := by
  have h0 : ¬ (N = 0 ∨ NB = 0 ∨ NE = 0 ∨ NB = 1) := by omega
  have ha : 0 < allc NE P := by unfold allc; omega
  have htP : ch % allc NE P < P := lt_of_lt_of_le (Nat.mod_lt _ ha) (by unfold allc; omega)
  have h1 := hi.2 _ htP
  have h2 : (sch.filter fun x => decide (x.2.1 = ch)) =
      (sch.filter fun x => decide (x.1 = ch % allc NE P)).filter fun x => decide (x.2.1 = ch) := by
    rw [List.filter_filter]
    refine List.filter_congr fun x hx => ?_
    by_cases h : x.2.1 = ch
    · have hm := (inter_mem hi hx).2
      unfold unmProg at hm
      rw [if_neg h0] at hm
      simp only [List.mem_flatMap, List.mem_filter, List.mem_map, decide_eq_true_eq] at hm
      obtain ⟨c, ⟨_, hc'⟩, b, _, e⟩ := hm
      have : c = ch := by rw [← e] at h; exact h
      subst this
      simp [h, hc']
    · simp [h]
  rw [h2]
  have h3 : ∀ L : List (Nat × (Nat × (Nat × Nat))), (L.filter fun x => decide (x.2.1 = ch)).map (·.2) = (L.map (·.2)).filter fun a => decide (a.1 = ch) := by
    intro L
    rw [List.filter_map]
    rfl
  rw [h3, h1]
  unfold unmProg
  rw [if_neg h0]
  exact flat_filter (List.nodup_range.filter _) (List.mem_filter.mpr ⟨List.mem_range.mpr hc, by simp⟩)

end
end
end Verif.Blg

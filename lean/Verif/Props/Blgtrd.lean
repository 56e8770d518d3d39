/-
C87: the orthogonal factors of the bulge chasing are applied completely and in the right order.
-/
import Verif.BlgtrdRun
import Mathlib.Data.Rat.Star
import Mathlib.Tactic.IntervalCases

namespace Verif.Props

open Verif.Blg Verif.Layout Verif.Qr Verif.Sched Finset Matrix

universe v

section
variable {α : Type v} [CommRing α] [StarRing α] {N NB V NE P : Nat} {Va Ta T : Nat → α}

/-- One step, seen in one column (`star` of one row on the right). -/
def colOf (left : Bool) (N : Nat) (E : Nat → Nat → α) (c : Nat) : Fin N → α := fun r => if left then E r c else star (E c r)

theorem act_col (hNB : 2 ≤ NB) (hV : 0 < V) (hs : Stored N NB V Va) {b : Nat × Nat} (hb : b ∈ diamonds N NB V)
    (hT : ∀ i l, i ≤ l → l < vn N NB V b → 0 < vm N NB V b →
      tblk N NB V T b i l = larft (vm N NB V b) (vblk N NB V Va b) (taublk N NB V Ta b) (vn N NB V b) i l) (left : Bool) {c : Nat} (hc : c < NE)
    (E : Nat → Nat → α) : colOf left N (unmAct left (!left) N NB V NE P Va T (c / colpc NE P, b) E) c =
      (((List.range (vn N NB V b)).map fun l =>
        refl N (wvec N NB V Va (b.1 * V + l) b.2) (wtau N NB V Ta (b.1 * V + l) b.2)).prod).mulVec (colOf left N E c) := by
  have hp := colpc_pos NE P
  have h1 := Nat.div_add_mod' c (colpc NE P)
  have h2 := Nat.mod_lt c hp
  have hch : c / colpc NE P * colpc NE P ≤ c ∧ c < c / colpc NE P * colpc NE P + tdim NE (colpc NE P) (c / colpc NE P) := by
    unfold tdim
    omega
  by_cases h : 0 < vm N NB V b ∧ 0 < vn N NB V b
  · rw [← blk_prod hNB hV hs hb hT h.1]
    unfold unmAct
    rw [if_pos h]
    funext r
    cases left
    · exact larfb_right (vm_row hb (by omega) hV) hch r
    · exact larfb_left (vm_row hb (by omega) hV) hch r
  · have h0 : vn N NB V b = 0 := by
      by_contra h0
      refine h ⟨?_, by omega⟩
      unfold vn at h0
      split at h0 <;> omega
    rw [h0]
    unfold unmAct
    rw [if_neg h]
    simp

theorem larfb_off {left ct : Bool} {r0 c0 M n K : Nat} {v t E : Nat → Nat → α} {i j : Nat}
    (h : ¬ ((r0 ≤ i ∧ i < r0 + M) ∧ c0 ≤ j ∧ j < c0 + n)) : larfbAt left ct r0 c0 M n K v t E i j = E i j := by
  unfold larfbAt larfbGemm
  split
  · rename_i h1
    have e : E (r0 + (i - r0)) (c0 + (j - c0)) = E i j := by
      rw [show r0 + (i - r0) = i by omega, show c0 + (j - c0) = j by omega]
    split
    · exact e
    · cases left
      · simp only [Bool.false_eq_true, if_false]
        rw [if_neg (by omega), e]
      · simp only [if_true]
        rw [if_neg (by omega), e]
  · rfl

theorem act_other (left ct : Bool) {a : Nat × (Nat × Nat)} {c : Nat} (hc : NE ≤ c ∨ a.1 ≠ c / colpc NE P) (E : Nat → Nat → α) (r : Nat) :
    (if left then unmAct left ct N NB V NE P Va T a E r c else unmAct left ct N NB V NE P Va T a E c r) = if left then E r c else E c r := by
  have hp := colpc_pos NE P
  have hout : ¬ (a.1 * colpc NE P ≤ c ∧ c < a.1 * colpc NE P + tdim NE (colpc NE P) a.1) := by
    rintro ⟨h1, h2⟩
    unfold tdim at h2
    rcases hc with hc | hc
    · omega
    · refine hc ?_
      rw [eq_comm, Nat.div_eq_iff hp]
      omega
  cases left
  · simp only [Bool.false_eq_true, if_false]
    unfold unmAct
    split
    · exact larfb_off (by omega)
    · rfl
  · simp only [if_true]
    unfold unmAct
    split
    · exact larfb_off (by omega)
    · rfl

theorem act_below (left ct : Bool) {a : Nat × (Nat × Nat)} (hNB : 0 < NB) (hV : 0 < V) (hb : a.2 ∈ diamonds N NB V) {r : Nat} (hr : N ≤ r) (c : Nat)
    (E : Nat → Nat → α) :
    (if left then unmAct left ct N NB V NE P Va T a E r c else unmAct left ct N NB V NE P Va T a E c r) = if left then E r c else E c r := by
  have hv := vm_row hb hNB hV
  cases left
  · simp only [Bool.false_eq_true, if_false]
    unfold unmAct
    split
    · exact larfb_off (by omega)
    · rfl
  · simp only [if_true]
    unfold unmAct
    split
    · exact larfb_off (by omega)
    · rfl

theorem run_col (hNB : 2 ≤ NB) (hV : 0 < V) (hs : Stored N NB V Va)
    (hT : ∀ b ∈ diamonds N NB V, ∀ i l, i ≤ l → l < vn N NB V b → 0 < vm N NB V b →
      tblk N NB V T b i l = larft (vm N NB V b) (vblk N NB V Va b) (taublk N NB V Ta b) (vn N NB V b) i l) (left : Bool) {c : Nat} (hc : c < NE) :
    ∀ (L : List (Nat × (Nat × (Nat × Nat)))) (E : Nat → Nat → α), (∀ x ∈ L, x.2.2 ∈ diamonds N NB V) →
      colOf left N (execL (L.map fun x => unmAct left (!left) N NB V NE P Va T x.2) E) c =
        execL (((L.filter fun x => decide (x.2.1 = c / colpc NE P)).map (·.2)).map fun a => (((List.range (vn N NB V a.2)).map fun l =>
          refl N (wvec N NB V Va (a.2.1 * V + l) a.2.2) (wtau N NB V Ta (a.2.1 * V + l) a.2.2)).prod).mulVec) (colOf left N E c)
  | [], _, _ => rfl
  | x :: L, E, hL => by
    rw [List.map_cons, execL_cons, run_col hNB hV hs hT left hc L _ fun y hy => hL y (List.mem_cons_of_mem _ hy)]
    by_cases h : x.2.1 = c / colpc NE P
    · rw [List.filter_cons_of_pos (by simpa using h), List.map_cons, List.map_cons, execL_cons]
      congr 1
      have e := act_col (P := P) hNB hV hs (hL x (List.mem_cons_self ..)) (hT _ (hL x (List.mem_cons_self ..))) left hc E
      rw [← h] at e
      exact e
    · rw [List.filter_cons_of_neg (by simpa using h)]
      congr 1
      funext r
      have e := act_other (N := N) (NB := NB) (V := V) (Va := Va) (T := T) left (!left) (a := x.2) (Or.inr h) E (r : Nat)
      unfold colOf
      cases left
      · simp only [Bool.false_eq_true, if_false] at e ⊢
        rw [e]
      · simp only [if_true] at e ⊢
        exact e

theorem run_other (hNB : 0 < NB) (hV : 0 < V) (left ct : Bool) {r c : Nat} (h : N ≤ r ∨ NE ≤ c) :
    ∀ (L : List (Nat × (Nat × (Nat × Nat)))) (E : Nat → Nat → α), (∀ x ∈ L, x.2.2 ∈ diamonds N NB V) →
      (if left then execL (L.map fun x => unmAct left ct N NB V NE P Va T x.2) E r c
        else execL (L.map fun x => unmAct left ct N NB V NE P Va T x.2) E c r) = if left then E r c else E c r
  | [], _, _ => rfl
  | x :: L, E, hL => by
    rw [List.map_cons, execL_cons, run_other hNB hV left ct h L _ fun y hy => hL y (List.mem_cons_of_mem _ hy)]
    rcases h with h | h
    · exact act_below left ct hNB hV (hL x (List.mem_cons_self ..)) h c E
    · exact act_other left ct (Or.inl h) E r

/-- Both sides at once. -/
theorem run_unm (hNB : 2 ≤ NB) (hV : 0 < V) (hs : Stored N NB V Va) {P1 : Nat} (hP1 : 0 < P1) (hP : 0 < P) {T0 : Nat → α}
    (h1 : LarftExec N NB V P1 Va Ta T0 T) (left : Bool) {E E' : Nat → Nat → α} (h2 : UnmExec left (!left) N NB V NE P Va T E E') :
    (∀ c, c < NE → colOf left N E' c = (bulgeQ N NB V Va Ta).mulVec (colOf left N E c)) ∧
    ∀ r c, N ≤ r ∨ NE ≤ c → (if left then E' r c else E' c r) = if left then E r c else E c r := by
  obtain ⟨sch, hi, rfl⟩ := h2
  have hmem : ∀ x ∈ sch, x.2.2 ∈ diamonds N NB V := by
    intro x hx
    have hm := (inter_mem hi hx).2
    unfold unmProg at hm
    split at hm
    · exact absurd hm List.not_mem_nil
    · simp only [List.mem_flatMap, List.mem_map] at hm
      obtain ⟨c, _, b, hb, e⟩ := hm
      rw [← e]
      exact hb
  refine ⟨fun c hc => ?_, fun r c h => run_other (by omega) hV left _ h sch E hmem⟩
  by_cases hN : N = 0
  · subst hN
    funext r
    exact r.elim0
  rw [run_col hNB hV hs (fun b hb i l hil hl hm => larft_done hNB hV hP1 h1 hb hil hl hm) left hc sch E hmem,
    chunk_seq hNB hN (by omega) hP hi, List.map_map]
  · exact diamonds_eq hNB hV _
  · unfold nchunk
    rw [lt_ceilDiv (colpc_pos NE P)]
    have := Nat.div_mul_le_self c (colpc NE P)
    omega

/-- **C87, left.** The blocks of reflectors are built and applied by any numbers of threads: the columns of `E` are multiplied by the product of all
reflectors, sweep by sweep, and nothing else is changed. -/
theorem C87_left (hNB : 2 ≤ NB) (hV : 0 < V) (hs : Stored N NB V Va) {P1 P2 : Nat} (hP1 : 0 < P1) (hP2 : 0 < P2) {T0 T1 : Nat → α}
    (h1 : LarftExec N NB V P1 Va Ta T0 T1) {E E' : Nat → Nat → α} (h2 : UnmExec true false N NB V NE P2 Va T1 E E') :
    (∀ (r : Fin N) c, c < NE → E' r c = ∑ k : Fin N, bulgeQ N NB V Va Ta r k * E k c) ∧
    ∀ r c, N ≤ r ∨ NE ≤ c → E' r c = E r c := by
  obtain ⟨k1, k2⟩ := run_unm hNB hV hs hP1 hP2 h1 true h2
  exact ⟨fun r c hc => congrFun (k1 c hc) r, k2⟩

/-- **C87, right.** From the right the rows of `E` are multiplied by the conjugate transpose of the product. -/
theorem C87_right (hNB : 2 ≤ NB) (hV : 0 < V) (hs : Stored N NB V Va) {P1 P2 : Nat} (hP1 : 0 < P1) (hP2 : 0 < P2) {T0 T1 : Nat → α}
    (h1 : LarftExec N NB V P1 Va Ta T0 T1) {E E' : Nat → Nat → α} (h2 : UnmExec false true N NB V NE P2 Va T1 E E') :
    (∀ c (r : Fin N), c < NE → E' c r = ∑ k : Fin N, E c k * star (bulgeQ N NB V Va Ta r k)) ∧
    ∀ c r, N ≤ r ∨ NE ≤ c → E' c r = E c r := by
  obtain ⟨k1, k2⟩ := run_unm hNB hV hs hP1 hP2 h1 false h2
  refine ⟨fun c r hc => ?_, fun c r h => k2 r c h⟩
  have e := congrFun (k1 c hc) r
  rw [← star_star (E' c r)]
  show star (colOf false N E' c r) = _
  rw [e]
  simp only [Matrix.mulVec, dotProduct, star_sum, colOf, star_mul, Bool.false_eq_true, if_false, star_star]

/-- **C87, storage.** Distinct reflectors are stored in distinct places, inside of the arrays that `plasma_omp_zgesdd` allocates; there is one for each block that
the bulge chasing executes and that generates a reflector. -/
theorem C87_storage (hNB : 0 < NB) (hV : 0 < V) {s q : Nat} (h : IsRefl N NB s q) :
    (∀ k, k < NB → vpos N NB V s (rst NB s q) + k < ldv NB V * blkcnt N NB V * V) ∧ taupos N NB V s (rst NB s q) < blkcnt N NB V * V ∧
    (∀ s' q' k k', IsRefl N NB s' q' → k < NB → k' < NB → vpos N NB V s (rst NB s q) + k = vpos N NB V s' (rst NB s' q') + k' →
      s = s' ∧ q = q' ∧ k = k') ∧
    (∀ s' q', IsRefl N NB s' q' → taupos N NB V s (rst NB s q) = taupos N NB V s' (rst NB s' q') → s = s' ∧ q = q') := by
  have hb := bid_lt hNB hV h
  have h1 := Nat.mod_lt s hV
  have hld : ∀ s k, k < NB → s % V + k < ldv NB V := by
    intro s k hk
    have := Nat.mod_lt s hV
    unfold ldv
    omega
  have hinj : ∀ s' q', IsRefl N NB s' q' → blkid N NB V s (rst NB s q) = blkid N NB V s' (rst NB s' q') → s % V = s' % V → s = s' ∧ q = q' := by
    intro s' q' h' e e2
    have d1 : (s / V, q) ∈ diamonds N NB V := mem_diamonds.mpr ⟨sweep_nt hV h.1, refl_mt hNB hV h⟩
    have d2 : (s' / V, q') ∈ diamonds N NB V := mem_diamonds.mpr ⟨sweep_nt hV h'.1, refl_mt hNB hV h'⟩
    have e3 := bid_inj hNB hV d1 d2 (by rw [bid_eq hNB hV, bid_eq hNB hV]; rw [blkid_refl hNB, blkid_refl hNB] at e; exact e)
    rw [Prod.mk.injEq] at e3
    refine ⟨?_, e3.2⟩
    rw [← Nat.div_add_mod' s V, ← Nat.div_add_mod' s' V, e3.1, e2]
  have e0 : ∀ s q k, vpos N NB V s (rst NB s q) + k = (blkid N NB V s (rst NB s q) * V + s % V) * ldv NB V + (s % V + k) := by
    intro s q k
    unfold vpos
    rw [Nat.add_mul]
    omega
  have hlin : blkid N NB V s (rst NB s q) * V + s % V + 1 ≤ blkcnt N NB V * V := by
    have : (blkid N NB V s (rst NB s q) + 1) * V ≤ blkcnt N NB V * V := Nat.mul_le_mul_right _ hb
    rw [Nat.add_mul] at this
    omega
  refine ⟨fun k hk => ?_, by unfold taupos; omega, ?_, ?_⟩
  · rw [e0]
    have h2 := hld s k hk
    have h3 := Nat.mul_le_mul_right (ldv NB V) hlin
    rw [Nat.add_mul, Nat.mul_comm (blkcnt N NB V * V)] at h3
    rw [Nat.mul_assoc]
    omega
  · intro s' q' k k' h' hk hk' e
    rw [e0, e0] at e
    obtain ⟨e1, e2⟩ := digits (hld s k hk) (hld s' k' hk') e
    obtain ⟨e3, e4⟩ := digits h1 (Nat.mod_lt s' hV) e1
    obtain ⟨e5, e6⟩ := hinj s' q' h' e3 e4
    exact ⟨e5, e6, by omega⟩
  · intro s' q' h' e
    unfold taupos at e
    obtain ⟨e3, e4⟩ := digits h1 (Nat.mod_lt s' hV) e
    exact hinj s' q' h' e3 e4

theorem C87_blocks (hn : 2 ≤ N) (hNB : 0 < NB) {s q : Nat} : IsRefl N NB s q ↔ Bulge.IsBlk N NB (2 * q + 1, s + 1) := isRefl_iff hn hNB

end

/-! ### Executions exist -/

theorem inter_exists {ι : Type} (P : Nat) (prog : Nat → List ι) : ∃ sch, Inter P prog sch := by
  refine ⟨(List.range P).flatMap fun t => (prog t).map fun a => (t, a), ?_, ?_⟩
  · intro x hx
    simp only [List.mem_flatMap, List.mem_range, List.mem_map] at hx
    obtain ⟨t, ht, a, _, rfl⟩ := hx
    exact ht
  · have key : ∀ (l : List Nat) (t : Nat), l.Nodup →
        ((l.flatMap fun t => (prog t).map fun a => (t, a)).filter fun x => decide (x.1 = t)).map (·.2) = if t ∈ l then prog t else [] := by
      intro l t
      induction l with
      | nil => intro _; rfl
      | cons c l ih =>
        intro hn
        obtain ⟨h1, h2⟩ := List.nodup_cons.mp hn
        rw [List.flatMap_cons, List.filter_append, List.map_append, ih h2]
        by_cases hc : t = c
        · subst hc
          rw [if_neg h1, if_pos (List.mem_cons_self ..), List.append_nil, List.filter_map, List.map_map]
          have : (fun x : Nat × ι => decide (x.1 = t)) ∘ (fun a => (t, a)) = fun _ => true := by
            funext a; simp
          rw [this, List.filter_true]
          simp [Function.comp_def]
        · have h3 : ((prog c).map fun a => (c, a)).filter (fun x => decide (x.1 = t)) = [] := by
            rw [List.filter_eq_nil_iff]
            intro a ha
            obtain ⟨b, _, rfl⟩ := List.mem_map.mp ha
            simpa using fun e => hc e.symm
          rw [h3]
          simp [hc]
    intro t ht
    rw [key _ t List.nodup_range, if_pos (List.mem_range.mpr ht)]

/-- Order 4, width 2, one sweep in a block: three reflectors `(1,3)`, `(1,3)`, `(1)` with scalars 1, 2, 3. -/
def blgV : Nat → ℚ
  | 0 => 1
  | 1 => 3
  | 2 => 1
  | 3 => 3
  | 4 => 1
  | _ => 0

theorem blg_refl {s q : Nat} : IsRefl 4 2 s q ↔ s < 3 ∧ q = 0 := by
  unfold Blg.IsRefl
  omega

example : Stored 4 2 1 blgV := by
  constructor
  · intro s q h
    obtain ⟨h1, rfl⟩ := blg_refl.mp h
    interval_cases s <;> rfl
  · intro x h
    have h0 := h 0 0 0 (by decide) (by decide)
    have h1 := h 0 0 1 (by decide) (by decide)
    have h2 := h 1 0 0 (by decide) (by decide)
    have h3 := h 1 0 1 (by decide) (by decide)
    have h4 := h 2 0 0 (by decide) (by decide)
    replace h0 : x ≠ 0 := h0
    replace h1 : x ≠ 1 := h1
    replace h2 : x ≠ 2 := h2
    replace h3 : x ≠ 3 := h3
    replace h4 : x ≠ 4 := h4
    unfold blgV
    split <;> first | rfl | contradiction

/-- Three threads for the first call and two for the second. -/
example (E : Nat → Nat → ℚ) : ∃ T1 E', LarftExec 4 2 1 3 blgV (fun x => (x : ℚ) + 1) (fun _ => 7) T1 ∧
    UnmExec true false 4 2 1 4 2 blgV T1 E E' := by
  obtain ⟨s1, h1⟩ := inter_exists 3 (larftProg 4 2 1 3)
  obtain ⟨s2, h2⟩ := inter_exists 2 (unmProg 4 2 1 4 2)
  exact ⟨_, _, ⟨s1, h1, rfl⟩, s2, h2, rfl⟩

/-- The order of the blocks is not the order of the sweeps: with two sweeps in a block the second reflector of the first sweep is applied after the first reflector
of the second sweep. -/
example : refls 6 2 = [(0, 0), (0, 1), (1, 0), (1, 1), (2, 0), (3, 0), (4, 0)] ∧
    applied 6 2 2 = [(4, 0), (3, 0), (2, 0), (1, 0), (0, 0), (1, 1), (0, 1)] := by decide

/-! ### C88: the workspace -/

section
variable {NB V NE P N t : Nat}

theorem colpc_le (NE P : Nat) : colpc NE P ≤ 200 := by
  have h : ∀ c : Nat, (if (if 200 < c then 120 else c) < 30 then 32 else if 200 < c then 120 else c) ≤ 200 := by
    intro c
    split_ifs <;> omega
  exact h _

/-- **C88, partial.** Elements of the workspace that one application of a block writes, `corelen * Vn` (compute/pzunmqr_blgtrd.c:351-363,
core_blas/core_zlarfb_gemm.c:150-155), with `Vblksiz = nb/4` (compute/zgesdd.c:498), are inside of the `ib*nb + 4*nb*nb` elements that `plasma_zgesdd` allocates for
each thread (compute/zgesdd.c:206), if `4*nb + ib >= 50`. -/
theorem C88_work_partial {ib : Nat} (h : 50 ≤ 4 * NB + ib) {a : Nat × (Nat × Nat)} (_ha : a ∈ unmProg N NB (NB / 4) NE P t) :
    tdim NE (colpc NE P) a.1 * vn N NB (NB / 4) a.2 ≤ ib * NB + 4 * NB * NB := by
  have h1 : tdim NE (colpc NE P) a.1 ≤ 200 := le_trans Layout.tdim_le (colpc_le NE P)
  have h2 := vn_le (N := N) (NB := NB) (V := NB / 4) a.2
  have h3 : tdim NE (colpc NE P) a.1 * vn N NB (NB / 4) a.2 ≤ 200 * (NB / 4) := Nat.mul_le_mul h1 h2
  have h4 : 200 * (NB / 4) ≤ 50 * NB := by omega
  have h5 : 50 * NB ≤ (4 * NB + ib) * NB := Nat.mul_le_mul_right _ h
  have h6 : (4 * NB + ib) * NB = ib * NB + 4 * NB * NB := by ring
  omega

/-- **C88, refuted for small tiles.** `nb = 8`, `ib = 4`, order 200, one thread: the first block applied to the first chunk needs 400 elements of a workspace of 288. -/
theorem C88_work_refuted : ∃ a ∈ unmProg 200 8 (8 / 4) 200 1 0, 4 * 8 + 4 * 8 * 8 < tdim 200 (colpc 200 1) a.1 * vn 200 8 (8 / 4) a.2 ∧
    0 < vm 200 8 (8 / 4) a.2 := by
  refine ⟨(0, (0, 0)), ?_, by decide +kernel, by decide +kernel⟩
  unfold unmProg
  rw [if_neg (by decide)]
  simp only [List.mem_flatMap, List.mem_filter, List.mem_range, List.mem_map]
  exact ⟨0, ⟨by decide +kernel, by decide +kernel⟩, (0, 0), mem_diamonds.mpr ⟨by decide +kernel, by decide +kernel⟩, rfl⟩

end

end Verif.Props

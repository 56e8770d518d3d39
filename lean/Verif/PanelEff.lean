/-
The phases of the LU panel kernel: footprints, absence of races, effects.
-/
import Verif.Panel

namespace Verif.Panel

open Verif.Tile Verif.Layout Verif.LU Finset

set_option linter.unusedSectionVars false

universe v w

variable {α : Type v}

/-- Sizes for which the kernel is called: compute/pzgetrf.c:68-108 passes a panel no wider than
a tile, at least one rank, and `ib` from the context (positive). -/
structure Cfg.OK (z : Cfg) : Prop where
  b : 0 < z.b
  ib : 0 < z.ib
  size : 0 < z.size
  N : z.N ≤ z.b

namespace Cfg
variable {z : Cfg}

theorem OK.mn_le (h : z.OK) : z.mn ≤ z.b := by have := h.N; unfold mn; omega
theorem mn_M (z : Cfg) : z.mn ≤ z.M := by unfold mn; omega
theorem mn_N (z : Cfg) : z.mn ≤ z.N := by unfold mn; omega
theorem kb_le {k : Nat} (hk : k ≤ z.mn) : k + z.kb k ≤ z.mn := by unfold kb; omega

theorem OK.reg_at (h : z.OK) {R : Nat → Nat → Prop} {r c : Nat} :
    z.reg R (.a (r / z.b)) (r % z.b) c ↔ R r c := by
  unfold reg
  have e : r / z.b * z.b + r % z.b = r := by rw [Nat.mul_comm]; exact Nat.div_add_mod _ _
  constructor
  · rintro ⟨l, hl, _, hR⟩
    obtain rfl := PT.a.inj hl
    rwa [e] at hR
  · intro hR
    exact ⟨_, rfl, Nat.mod_lt _ h.b, by rwa [e]⟩

theorem reg_ne {R : Nat → Nat → Prop} {x : PT} {i c : Nat} (hx : ∀ l, x ≠ .a l) : ¬ z.reg R x i c := by
  rintro ⟨l, rfl, _⟩; exact hx l rfl

theorem reg_mono {R R' : Nat → Nat → Prop} (h : ∀ r c, R r c → R' r c) {x : PT} {i c : Nat}
    (hx : z.reg R x i c) : z.reg R' x i c := by
  obtain ⟨l, h1, h2, h3⟩ := hx; exact ⟨l, h1, h2, h _ _ h3⟩

theorem reg_both {R R' : Nat → Nat → Prop} {x : PT} {i c : Nat} (h : z.reg R x i c)
    (h' : z.reg R' x i c) : ∃ r, R r c ∧ R' r c := by
  obtain ⟨l, rfl, _, hR⟩ := h
  obtain ⟨l', hl, _, hR'⟩ := h'
  obtain rfl := PT.a.inj hl
  exact ⟨_, hR, hR'⟩

theorem OK.mem_rows (h : z.OK) {j l r : Nat} (hj : j < z.mn) :
    r ∈ z.rows j l ↔ j < r ∧ r < z.M ∧ r / z.b = l := by
  have hjb := h.mn_le
  have hb := h.b
  unfold rows
  split
  · rename_i hl
    subst hl
    rw [List.mem_range'_1, Nat.div_eq_zero_iff_lt hb]
    unfold tdim
    omega
  · rename_i hl
    rw [List.mem_range'_1]
    constructor
    · rintro ⟨h1, h2⟩
      obtain ⟨i, rfl⟩ := Nat.exists_eq_add_of_le h1
      have h3 : i < tdim z.M z.b l := by omega
      rw [tdim_row] at h3
      refine ⟨?_, by omega, div_of_tile h3.1⟩
      have : z.b ≤ l * z.b := Nat.le_mul_of_pos_left _ (by omega)
      omega
    · rintro ⟨h1, h2, rfl⟩
      have h3 := mod_lt_tdim hb h2
      have h4 : r / z.b * z.b + r % z.b = r := by rw [Nat.mul_comm]; exact Nat.div_add_mod _ _
      omega

theorem OK.mem_tiles (h : z.OK) {j rank r : Nat} (hj : j < z.mn) :
    r ∈ (z.tiles rank).flatMap (z.rows j) ↔ j < r ∧ r < z.M ∧ r / z.b % z.size = rank := by
  rw [List.mem_flatMap]
  constructor
  · rintro ⟨l, hl, hr⟩
    rw [h.mem_rows hj] at hr
    simp only [tiles, List.mem_filter, decide_eq_true_iff] at hl
    rw [hr.2.2]; exact ⟨hr.1, hr.2.1, hl.2⟩
  · rintro ⟨h1, h2, h3⟩
    refine ⟨r / z.b, ?_, (h.mem_rows hj).mpr ⟨h1, h2, rfl⟩⟩
    simp only [tiles, List.mem_filter, List.mem_range, decide_eq_true_iff]
    refine ⟨?_, h3⟩
    unfold mt
    rw [lt_ceilDiv h.b]
    exact lt_of_le_of_lt (Nat.div_mul_le_self _ _) h2

theorem clamp_of {z : Cfg} {lo i x : Nat} (h1 : lo ≤ x) (h2 : x < z.M) : z.clamp lo i x = x := by
  unfold clamp; rw [if_pos ⟨h1, h2⟩]

theorem clamp_range {z : Cfg} {lo i x : Nat} (h1 : lo ≤ i) (h2 : i < z.M) :
    lo ≤ z.clamp lo i x ∧ z.clamp lo i x < z.M := by
  unfold clamp; split
  · assumption
  · exact ⟨h1, h2⟩

end Cfg

variable {z : Cfg}

theorem num_congr (h : z.OK) {R : Nat → Nat → Prop} {s s' : PS α}
    (hs : ∀ x i c, z.reg R x i c → s x i c = s' x i c) {r c : Nat} (hr : R r c) :
    num z s r c = num z s' r c := by
  unfold num; rw [hs _ _ _ (h.reg_at.mpr hr)]

/-! ### Interchanges -/

theorem interch_eq (p : Nat → Nat) (lo n : Nat) (X : Nat → Nat → α) (r c : Nat) :
    interch (List.range' lo n) p X r c = X (perm p lo n r) c := by
  induction n generalizing r with
  | zero => rfl
  | succ n ih =>
    rw [List.range'_concat, Nat.one_mul]
    unfold interch at ih ⊢
    rw [List.foldl_append]
    simp only [List.foldl_cons, List.foldl_nil]
    rw [ih]
    rfl

/-! ### Searching for the pivot -/

section
variable {γ : Type w} [LinearOrder γ]

/-- Maximum search over a list. -/
def amax {ι : Type} (mag : α → γ) (val : ι → α) (idx : ι → Nat) (l : List ι) (a : α × Nat) : α × Nat :=
  l.foldl (fun a r => if mag a.1 < mag (val r) then (val r, idx r) else a) a

theorem amax_spec {ι : Type} (mag : α → γ) (val : ι → α) (idx : ι → Nat) (l : List ι) (a : α × Nat) :
    (amax mag val idx l a = a ∨ ∃ r ∈ l, amax mag val idx l a = (val r, idx r)) ∧
    mag a.1 ≤ mag (amax mag val idx l a).1 ∧ ∀ r ∈ l, mag (val r) ≤ mag (amax mag val idx l a).1 := by
  induction l generalizing a with
  | nil => exact ⟨Or.inl rfl, le_refl _, by simp⟩
  | cons x l ih =>
    unfold amax at ih ⊢
    simp only [List.foldl_cons]
    by_cases hx : mag a.1 < mag (val x)
    · rw [if_pos hx]
      obtain ⟨h1, h2, h3⟩ := ih (val x, idx x)
      refine ⟨Or.inr ?_, le_trans (le_of_lt hx) h2, ?_⟩
      · rcases h1 with h1 | ⟨r, hr, h1⟩
        · exact ⟨x, by simp, h1⟩
        · exact ⟨r, by simp [hr], h1⟩
      · intro r hr
        rcases List.mem_cons.mp hr with rfl | hr
        · exact h2
        · exact h3 r hr
    · rw [if_neg hx]
      obtain ⟨h1, h2, h3⟩ := ih a
      refine ⟨?_, h2, ?_⟩
      · rcases h1 with h1 | ⟨r, hr, h1⟩
        · exact Or.inl h1
        · exact Or.inr ⟨r, by simp [hr], h1⟩
      · intro r hr
        rcases List.mem_cons.mp hr with rfl | hr
        · exact le_trans (not_lt.mp hx) h2
        · exact h3 r hr

variable [Field α] [StarRing α] [DecidableEq α]

omit [Field α] [StarRing α] [DecidableEq α] in
theorem search_eq (mag : α → γ) (X : Nat → Nat → α) (j : Nat) (rows : List Nat) :
    search mag X j rows = amax mag (fun r => X r j) (fun r => r - j) rows (X j j, 0) := rfl

omit [Field α] [StarRing α] [DecidableEq α] in
theorem search_congr (mag : α → γ) {X X' : Nat → Nat → α} {j : Nat} {rows : List Nat}
    (h0 : X j j = X' j j) (h : ∀ r ∈ rows, X r j = X' r j) :
    search mag X j rows = search mag X' j rows := by
  unfold search
  rw [h0]
  generalize ((X' j j, 0) : α × Nat) = a
  induction rows generalizing a with
  | nil => rfl
  | cons r rows ih =>
    simp only [List.foldl_cons]
    rw [h r (by simp), ih (fun r hr => h r (by simp [hr]))]

omit [Field α] [StarRing α] [DecidableEq α] in
theorem reduce_congr (mag : α → γ) {size : Nat} (h0 : 0 < size) {mv mv' : Nat → α} {mi mi' : Nat → Nat}
    (hv : ∀ i, i < size → mv i = mv' i) (hi : ∀ i, i < size → mi i = mi' i) :
    reduce size mag mv mi = reduce size mag mv' mi' := by
  unfold reduce
  rw [hv 0 h0, hi 0 h0]
  have hl : ∀ i ∈ List.range' 1 (size - 1), i < size := by
    intro i hi; rw [List.mem_range'_1] at hi; omega
  generalize List.range' 1 (size - 1) = l at hl
  generalize ((mv' 0, mi' 0) : α × Nat) = a
  induction l generalizing a with
  | nil => rfl
  | cons r l ih =>
    simp only [List.foldl_cons]
    rw [hv r (hl r (by simp)), hi r (hl r (by simp)), ih (fun r hr => hl r (by simp [hr]))]

/-- The pivot found by the ranks together. -/
def best (z : Cfg) (mag : α → γ) (X : Nat → Nat → α) (j : Nat) : α × Nat :=
  reduce z.size mag (fun i => (search mag X j ((z.tiles i).flatMap (z.rows j))).1)
    (fun i => (search mag X j ((z.tiles i).flatMap (z.rows j))).2)

omit [Field α] [StarRing α] [DecidableEq α] in
/-- The pivot is an entry of the column, at or below the diagonal, of largest magnitude. -/
theorem best_spec (h : z.OK) (mag : α → γ) (X : Nat → Nat → α) {j : Nat} (hj : j < z.mn) :
    j + (best z mag X j).2 < z.M ∧ (best z mag X j).1 = X (j + (best z mag X j).2) j ∧
    ∀ r, j ≤ r → r < z.M → mag (X r j) ≤ mag (best z mag X j).1 := by
  have hjM : j < z.M := lt_of_lt_of_le hj z.mn_M
  -- each rank
  have hs : ∀ i, let a := search mag X j ((z.tiles i).flatMap (z.rows j))
      j + a.2 < z.M ∧ a.1 = X (j + a.2) j ∧ mag (X j j) ≤ mag a.1 ∧
      ∀ r, j < r → r < z.M → r / z.b % z.size = i → mag (X r j) ≤ mag a.1 := by
    intro i
    obtain ⟨h1, h2, h3⟩ := amax_spec mag (fun r => X r j) (fun r => r - j)
      ((z.tiles i).flatMap (z.rows j)) (X j j, 0)
    rw [← search_eq] at h1 h2 h3
    refine ⟨?_, ?_, h2, fun r a1 a2 a3 => h3 r ((h.mem_tiles hj).mpr ⟨a1, a2, a3⟩)⟩
    · rcases h1 with h1 | ⟨r, hr, h1⟩
      · rw [h1]; exact hjM
      · rw [h1]; have := (h.mem_tiles hj).mp hr; simp only; omega
    · rcases h1 with h1 | ⟨r, hr, h1⟩
      · rw [h1]; rfl
      · rw [h1]; have := (h.mem_tiles hj).mp hr
        simp only
        rw [show j + (r - j) = r by omega]
  obtain ⟨h1, h2, h3⟩ := amax_spec mag (fun i => (search mag X j ((z.tiles i).flatMap (z.rows j))).1)
    (fun i => (search mag X j ((z.tiles i).flatMap (z.rows j))).2) (List.range' 1 (z.size - 1))
    ((search mag X j ((z.tiles 0).flatMap (z.rows j))).1, (search mag X j ((z.tiles 0).flatMap (z.rows j))).2)
  have hb : best z mag X j = amax mag (fun i => (search mag X j ((z.tiles i).flatMap (z.rows j))).1)
    (fun i => (search mag X j ((z.tiles i).flatMap (z.rows j))).2) (List.range' 1 (z.size - 1))
    ((search mag X j ((z.tiles 0).flatMap (z.rows j))).1, (search mag X j ((z.tiles 0).flatMap (z.rows j))).2) := rfl
  rw [← hb] at h1 h2 h3
  have h4 : ∀ i, i < z.size → mag (search mag X j ((z.tiles i).flatMap (z.rows j))).1 ≤ mag (best z mag X j).1 := by
    intro i hi
    rcases Nat.eq_zero_or_pos i with rfl | hi0
    · exact h2
    · exact h3 i (by rw [List.mem_range'_1]; omega)
  refine ⟨?_, ?_, ?_⟩
  · rcases h1 with h1 | ⟨i, _, h1⟩
    · rw [h1]; exact (hs 0).1
    · rw [h1]; exact (hs i).1
  · rcases h1 with h1 | ⟨i, _, h1⟩
    · rw [h1]; exact (hs 0).2.1
    · rw [h1]; exact (hs i).2.1
  · intro r hr hrM
    rcases Nat.eq_or_lt_of_le hr with rfl | hr
    · exact le_trans (hs 0).2.2.1 h2
    · exact le_trans ((hs (r / z.b % z.size)).2.2.2 r hr hrM rfl) (h4 _ (Nat.mod_lt _ h.size))

end

/-! ### The tasks -/

section
variable {γ : Type w} [LinearOrder γ] [Field α] [StarRing α] [DecidableEq α]

omit [Field α] [StarRing α] [DecidableEq α] in
theorem searchT_local (h : z.OK) (mag : α → γ) {j rank : Nat} (hj : j < z.mn) :
    (searchT z mag j rank).Local := by
  intro s s' hs x i c _
  show search _ _ _ _ = search _ _ _ _
  have hn : ∀ r, r < z.M → (r = j ∨ (j < r ∧ r / z.b % z.size = rank)) → num z s r j = num z s' r j :=
    fun r h1 h2 => num_congr h
      (R := fun r c => c = j ∧ r < z.M ∧ (r = j ∨ (j < r ∧ r / z.b % z.size = rank)))
      (fun x i c hx => hs x i c (Or.inl hx)) ⟨rfl, h1, h2⟩
  apply search_congr
  · exact hn j (lt_of_lt_of_le hj z.mn_M) (Or.inl rfl)
  · intro r hr
    have := (h.mem_tiles hj).mp hr
    exact hn r this.2.1 (Or.inr ⟨this.1, this.2.2⟩)

omit [Field α] [StarRing α] [DecidableEq α] in
theorem searchT_free (mag : α → γ) (size j : Nat) : RaceFree size (searchT z mag j) := by
  intro r r' _ _ hne ⟨x, i, c, hc⟩
  rcases hc with ⟨⟨h1, h2, h3⟩, h4 | ⟨h4, h5, h6⟩⟩ | ⟨h4, ⟨h1, h2, h3⟩⟩
  · obtain ⟨l, rfl, _⟩ := h4; simp at h1
  · exact hne (h2.symm.trans h5)
  · obtain ⟨l, rfl, _⟩ := h4; simp at h1

theorem pivotT_local (h : z.OK) (mag : α → γ) {k j rank : Nat} (hj : j < z.mn) :
    (pivotT z mag k j rank).Local := by
  rintro s s' hs x i c ⟨h0, hw⟩
  subst h0
  have hred : reduce z.size mag (fun i => (s .mval i 0).1) (fun i => (s .midx i 0).2) =
      reduce z.size mag (fun i => (s' .mval i 0).1) (fun i => (s' .midx i 0).2) := by
    apply reduce_congr _ h.size
    · intro i hi; rw [hs .mval i 0 (Or.inl ⟨rfl, Or.inl rfl, hi, rfl⟩)]
    · intro i hi; rw [hs .midx i 0 (Or.inl ⟨rfl, Or.inr rfl, hi, rfl⟩)]
  have hinf : s .info 0 0 = s' .info 0 0 := hs .info 0 0 (Or.inr ⟨rfl, Or.inr (Or.inr (Or.inl ⟨rfl, rfl, rfl⟩))⟩)
  have hinf' : infov s = infov s' := by unfold infov; rw [hinf]
  have hxs : s x i c = s' x i c := hs x i c (Or.inr ⟨rfl, hw⟩)
  have hnum : ∀ r c, j ≤ r ∧ r < z.M ∧ k ≤ c ∧ c < k + z.kb k → num z s r c = num z s' r c :=
    fun r c hr => num_congr h (R := fun r c => j ≤ r ∧ r < z.M ∧ k ≤ c ∧ c < k + z.kb k)
      (fun x i c hx => hs x i c (Or.inr ⟨rfl, Or.inr (Or.inr (Or.inr hx))⟩)) hr
  cases x with
  | mval => exact hred
  | midx => exact hred
  | ipiv => show ((0 : α), _) = (0, _); rw [hred]
  | info =>
    show ite _ _ _ = ite _ _ _
    rw [hred, hinf', hxs]
  | a l =>
    show ite _ _ _ = ite _ _ _
    rw [hred, hinf', hxs]
    split
    · rfl
    · congr 1
      have hreg : z.reg (fun r c => j ≤ r ∧ r < z.M ∧ k ≤ c ∧ c < k + z.kb k) (.a l) i c := by
        rcases hw with ⟨h1, _⟩ | ⟨h1, _⟩ | ⟨h1, _⟩ | h1
        · simp at h1
        · simp at h1
        · simp at h1
        · exact h1
      obtain ⟨l', hl, hi, h1, h2, h3, h4⟩ := hreg
      obtain rfl := PT.a.inj hl
      apply hnum
      generalize reduce z.size mag (fun i => (s' .mval i 0).1) (fun i => (s' .midx i 0).2) = m
      have hc := Cfg.clamp_range (z := z) (lo := j) (i := j) (x := j + m.2) (le_refl _)
        (lt_of_lt_of_le hj z.mn_M)
      refine ⟨?_, ?_, h3, h4⟩
      · rw [Equiv.swap_apply_def]; split
        · exact hc.1
        · split <;> omega
      · rw [Equiv.swap_apply_def]; split
        · exact hc.2
        · split <;> omega

theorem rank0_free {size : Nat} {ph : Nat → TTask PT (α × Nat)}
    (h : ∀ r x i c, (ph r).rd x i c ∨ (ph r).wr x i c → r = 0) : RaceFree size ph := by
  intro r r' _ _ hne ⟨x, i, c, hc⟩
  rcases hc with ⟨h1, h2⟩ | ⟨h1, h2⟩
  · exact hne ((h r x i c (Or.inr h1)).trans (h r' x i c h2).symm)
  · exact hne ((h r x i c (Or.inl h1)).trans (h r' x i c (Or.inr h2)).symm)

theorem pivotT_free (mag : α → γ) (size k j : Nat) : RaceFree size (pivotT z mag k j) :=
  rank0_free (by rintro r x i c (⟨h, _⟩ | ⟨h, _⟩) <;> exact h)

omit [StarRing α] [DecidableEq α] in
theorem updateT_local (h : z.OK) (dv : α → α → α) (big : α → Bool) {k j rank : Nat} (hj : j < k + z.kb k) :
    (updateT z dv big k j rank).Local := by
  rintro s s' hs x i c ⟨l, rfl, hi, h1, h2, h3, h4, h5⟩
  have hinf : infov s = infov s' := by
    unfold infov; rw [hs .info 0 0 (Or.inl (Or.inr ⟨rfl, rfl, rfl⟩))]
  have hrow : ∀ c, j ≤ c → c < k + z.kb k → num z s j c = num z s' j c := fun c a1 a2 =>
    num_congr h (R := fun r c => r = j ∧ j ≤ c ∧ c < k + z.kb k)
      (fun x i c hx => hs x i c (Or.inl (Or.inl hx))) ⟨rfl, a1, a2⟩
  have hown : ∀ c, j ≤ c → c < k + z.kb k → num z s (l * z.b + i) c = num z s' (l * z.b + i) c := fun c a1 a2 =>
    num_congr h (R := fun r c => j < r ∧ r < z.M ∧ r / z.b % z.size = rank ∧ j ≤ c ∧ c < k + z.kb k)
      (fun x i c hx => hs x i c (Or.inr hx)) ⟨h1, h2, h3, a1, a2⟩
  show (ite _ _ _, 0) = (ite _ _ _, 0)
  have hy : scaled dv big (infov s) (num z s) j (l * z.b + i) =
      scaled dv big (infov s') (num z s') j (l * z.b + i) := by
    unfold scaled
    rw [hinf, hrow j (le_refl _) hj, hown j (le_refl _) hj]
  rw [hy, hown c h4 h5, hrow c h4 h5]

omit [StarRing α] [DecidableEq α] in
theorem updateT_free (dv : α → α → α) (big : α → Bool) (size k j : Nat) :
    RaceFree size (updateT z dv big k j) := by
  intro r r' _ _ hne ⟨x, i, c, hc⟩
  have key : ∀ r r', r ≠ r' → (updateT z dv big k j r).wr x i c →
      (updateT z dv big k j r').rd x i c ∨ (updateT z dv big k j r').wr x i c → False := by
    intro r r' hne hw ho
    obtain ⟨l, rfl, _, hq⟩ := hw
    rcases ho with (⟨l', hl, _, hq'⟩ | ⟨hl, _⟩) | ⟨l', hl, _, hq'⟩
    · obtain rfl := PT.a.inj hl; omega
    · simp at hl
    · obtain rfl := PT.a.inj hl; exact hne (hq.2.2.1.symm.trans hq'.2.2.1)
  rcases hc with ⟨h1, h2⟩ | ⟨h1, h2⟩
  · exact key r r' hne h1 h2
  · exact key r' r (Ne.symm hne) h2 (Or.inl h1)

theorem prow_range {s : PS α} {off i : Nat} (h : i < z.M) : i ≤ prow z s off i ∧ prow z s off i < z.M :=
  Cfg.clamp_range (le_refl _) h

theorem rightT_local (h : z.OK) (dv : α → α → α) {k rank : Nat} (hk : k ≤ z.mn) :
    (rightT z dv k rank).Local := by
  rintro s s' hs x i c ⟨h0, hw⟩
  subst h0
  have hkb := Cfg.kb_le hk
  have hM := z.mn_M
  have hp : ∀ i, k ≤ i → i < k + z.kb k → pivv s i = pivv s' i := fun i h1 h2 => by
    unfold pivv; rw [hs .ipiv i 0 (Or.inr ⟨rfl, Or.inl ⟨rfl, h1, h2, rfl⟩⟩)]
  have hdiag : ∀ r c, k ≤ r → r < k + z.kb k → k ≤ c → c < k + z.kb k → num z s r c = num z s' r c :=
    fun r c a1 a2 a3 a4 => num_congr h (R := fun r c => k ≤ r ∧ r < k + z.kb k ∧ k ≤ c ∧ c < k + z.kb k)
      (fun x i c hx => hs x i c (Or.inl ⟨rfl, hx⟩)) ⟨a1, a2, a3, a4⟩
  have hright : ∀ r c, k ≤ r → r < z.M → k + z.kb k ≤ c → c < z.N → num z s r c = num z s' r c :=
    fun r c a1 a2 a3 a4 => num_congr h (R := fun r c => k ≤ r ∧ r < z.M ∧ k + z.kb k ≤ c ∧ c < z.N)
      (fun x i c hx => hs x i c (Or.inr ⟨rfl, Or.inr hx⟩)) ⟨a1, a2, a3, a4⟩
  rcases hw with ⟨rfl, h1, h2, rfl⟩ | ⟨l, rfl, hi, h1, h2, h3, h4⟩
  · show ((0 : α), _) = (0, _); rw [hp i h1 h2]
  · show (ite _ _ _, 0) = (ite _ _ _, 0)
    have hpp : perm (prow z s k) k (z.kb k) = perm (prow z s' k) k (z.kb k) :=
      perm_congr fun i a1 a2 => by unfold prow; rw [hp i a1 a2]
    have hY : ∀ r c, k ≤ r → r < z.M → k + z.kb k ≤ c → c < z.N →
        interch (List.range' k (z.kb k)) (prow z s k) (num z s) r c =
        interch (List.range' k (z.kb k)) (prow z s' k) (num z s') r c := by
      intro r c a1 a2 a3 a4
      rw [interch_eq, interch_eq, hpp]
      have := perm_range (p := prow z s' k) (lo := k) (n := z.kb k) (m := z.M)
        (fun i b1 b2 => prow_range (by omega)) a1 a2
      exact hright _ _ this.1 this.2 a3 a4
    congr 1
    split
    · rename_i hr
      apply trsmK_congr
      · rintro p q ⟨a1, a2, a3, a4⟩
        simp only [if_true] at a1 a2
        exact hdiag _ _ (by omega) (by omega) (by omega) (by omega)
      · rintro p q ⟨a1, a2⟩
        exact hY _ _ (by omega) (by omega) (by omega) (by omega)
      · exact ⟨by omega, by omega⟩
    · exact hY _ _ h1 h2 h3 h4

theorem rightT_free (dv : α → α → α) (size k : Nat) : RaceFree size (rightT z dv k) :=
  rank0_free (by rintro r x i c (⟨h, _⟩ | ⟨h, _⟩) <;> exact h)

omit [StarRing α] [DecidableEq α] in
theorem gemmT_local (h : z.OK) {k rank : Nat} : (gemmT z k rank : TTask PT (α × Nat)).Local := by
  rintro s s' hs x i c ⟨l, rfl, hi, h1, h2, h3, h4, h5⟩
  show ((_ : α), 0) = ((_ : α), 0)
  have ha : ∀ r c, ((k ≤ r ∧ r < k + z.kb k ∧ k + z.kb k ≤ c ∧ c < z.N) ∨
      (k + z.kb k ≤ r ∧ r < z.M ∧ r / z.b % z.size = rank ∧ k ≤ c ∧ c < k + z.kb k)) →
      num z s r c = num z s' r c := fun r c a => num_congr h
        (R := fun r c => (k ≤ r ∧ r < k + z.kb k ∧ k + z.kb k ≤ c ∧ c < z.N) ∨
          (k + z.kb k ≤ r ∧ r < z.M ∧ r / z.b % z.size = rank ∧ k ≤ c ∧ c < k + z.kb k))
        (fun x i c hx => hs x i c (Or.inl hx)) a
  have hb : num z s (l * z.b + i) c = num z s' (l * z.b + i) c := num_congr h
    (R := fun r c => k + z.kb k ≤ r ∧ r < z.M ∧ r / z.b % z.size = rank ∧ k + z.kb k ≤ c ∧ c < z.N)
    (fun x i c hx => hs x i c (Or.inr hx)) ⟨h1, h2, h3, h4, h5⟩
  rw [hb]
  congr 2
  refine Finset.sum_congr rfl fun q hq => ?_
  rw [Finset.mem_range] at hq
  rw [ha _ (k + q) (Or.inr ⟨h1, h2, h3, by omega, by omega⟩), ha (k + q) c (Or.inl ⟨by omega, by omega, h4, h5⟩)]

omit [StarRing α] [DecidableEq α] in
theorem gemmT_free (size k : Nat) : RaceFree size (gemmT z k : Nat → TTask PT (α × Nat)) := by
  intro r r' _ _ hne ⟨x, i, c, hc⟩
  have key : ∀ r r', r ≠ r' → (gemmT z k r : TTask PT (α × Nat)).wr x i c →
      (gemmT z k r' : TTask PT (α × Nat)).rd x i c ∨ (gemmT z k r' : TTask PT (α × Nat)).wr x i c → False := by
    intro r r' hne hw ho
    obtain ⟨l, rfl, _, hq⟩ := hw
    rcases ho with ⟨l', hl, _, hq' | hq'⟩ | ⟨l', hl, _, hq'⟩
    · obtain rfl := PT.a.inj hl; omega
    · obtain rfl := PT.a.inj hl; exact hne (hq.2.2.1.symm.trans hq'.2.2.1)
    · obtain rfl := PT.a.inj hl; exact hne (hq.2.2.1.symm.trans hq'.2.2.1)
  rcases hc with ⟨h1, h2⟩ | ⟨h1, h2⟩
  · exact key r r' hne h1 h2
  · exact key r' r (Ne.symm hne) h2 (Or.inl h1)

omit [Field α] [StarRing α] [DecidableEq α] in
/-- Left pivoting, column by column. -/
theorem leftF_eq (hib : 0 < z.ib) (p : Nat → Nat) (X : Nat → Nat → α) (r c : Nat) :
    leftF z p 0 X r c = if (c / z.ib + 1) * z.ib < z.mn then
      X (perm p ((c / z.ib + 1) * z.ib) (z.mn - (c / z.ib + 1) * z.ib) r) c else X r c := by
  have hfil : (blocks z).filter (0 < ·) = (List.range' 1 (ceilDiv z.mn z.ib - 1)).map (· * z.ib) := by
    unfold blocks
    rw [List.filter_map]
    cases hc : ceilDiv z.mn z.ib with
    | zero => simp
    | succ n =>
      rw [List.range_eq_range', List.range'_succ, List.filter_cons]
      simp only [Function.comp_apply, Nat.zero_mul, Nat.lt_irrefl, decide_false, Bool.false_eq_true,
        if_false, Nat.add_sub_cancel]
      congr 1
      rw [List.filter_eq_self]
      intro x hx
      rw [List.mem_range'_1] at hx
      simp only [Function.comp_apply, decide_eq_true_iff]
      exact Nat.mul_pos (by omega) hib
  have hstep : ∀ q, 0 < q → ∀ (Y : Nat → Nat → α), (if q * z.ib % z.ib = 0 then
      fun r c => if q * z.ib - z.ib ≤ c ∧ c < q * z.ib then interch (List.range' (q * z.ib) (z.mn - q * z.ib)) p Y r c
        else Y r c else Y) = fun r c => if c / z.ib + 1 = q then
          Y (perm p (q * z.ib) (z.mn - q * z.ib) r) c else Y r c := by
    intro q hq Y
    rw [if_pos (Nat.mul_mod_left _ _)]
    funext r c
    rw [interch_eq]
    have : (q * z.ib - z.ib ≤ c ∧ c < q * z.ib) ↔ c / z.ib + 1 = q := by
      obtain ⟨q', rfl⟩ := Nat.exists_eq_add_of_lt hq
      simp only [Nat.zero_add]
      have e : (q' + 1) * z.ib - z.ib = q' * z.ib := by rw [Nat.succ_mul]; omega
      rw [e]
      constructor
      · rintro ⟨h1, h2⟩
        have := Nat.le_div_iff_mul_le hib |>.mpr h1
        have := Nat.div_lt_iff_lt_mul hib |>.mpr h2
        omega
      · intro h
        exact ⟨Nat.le_div_iff_mul_le hib |>.mp (by omega), Nat.div_lt_iff_lt_mul hib |>.mp (by omega)⟩
    by_cases hh : c / z.ib + 1 = q
    · rw [if_pos hh, if_pos (this.mpr hh)]
    · rw [if_neg hh, if_neg (fun h => hh (this.mp h))]
  have hfold : ∀ (l : List Nat) (Y : Nat → Nat → α), (∀ q ∈ l, 0 < q) → l.Nodup →
      (l.map (· * z.ib)).foldl (fun X k => if k % z.ib = 0 then
        fun r c => if k - z.ib ≤ c ∧ c < k then interch (List.range' k (z.mn - k)) p X r c else X r c
        else X) Y r c = if c / z.ib + 1 ∈ l then
          Y (perm p ((c / z.ib + 1) * z.ib) (z.mn - (c / z.ib + 1) * z.ib) r) c else Y r c := by
    intro l
    induction l with
    | nil => intro Y _ _; simp
    | cons q l ih =>
      intro Y hpos hnd
      have hnd' := List.nodup_cons.mp hnd
      rw [List.map_cons, List.foldl_cons, hstep q (hpos q (by simp)), ih _ (fun q hq => hpos q (by simp [hq])) hnd'.2]
      by_cases h1 : c / z.ib + 1 = q
      · subst h1
        rw [if_neg hnd'.1, if_pos (by simp)]
        simp
      · have h2 : (c / z.ib + 1 ∈ q :: l) ↔ c / z.ib + 1 ∈ l := by simp [h1]
        by_cases h3 : c / z.ib + 1 ∈ l
        · rw [if_pos h3, if_pos (h2.mpr h3), if_neg h1]
        · rw [if_neg h3, if_neg (fun h => h3 (h2.mp h)), if_neg h1]
  unfold leftF
  rw [hfil, hfold _ _ (fun q hq => by rw [List.mem_range'_1] at hq; omega) List.nodup_range']
  have : (c / z.ib + 1 ∈ List.range' 1 (ceilDiv z.mn z.ib - 1)) ↔ (c / z.ib + 1) * z.ib < z.mn := by
    rw [List.mem_range'_1, ← lt_ceilDiv hib]; generalize c / z.ib = q; omega
  by_cases hh : (c / z.ib + 1) * z.ib < z.mn
  · rw [if_pos hh, if_pos (this.mpr hh)]
  · rw [if_neg hh, if_neg (fun h => hh (this.mp h))]

theorem leftT_local (h : z.OK) {rank : Nat} : (leftT z rank : TTask PT (α × Nat)).Local := by
  rintro s s' hs x i c ⟨rfl, l, rfl, hi, h1, h2⟩
  show ((_ : α), 0) = ((_ : α), 0)
  have hM := z.mn_M
  have hp : ∀ i, i < z.mn → pivv s i = pivv s' i := fun i h1 => by
    unfold pivv; rw [hs .ipiv i 0 (Or.inl ⟨rfl, rfl, h1, rfl⟩)]
  have hn : ∀ r c, r < z.M → c < z.mn → num z s r c = num z s' r c := fun r c a1 a2 =>
    num_congr h (R := fun r c => r < z.M ∧ c < z.mn) (fun x i c hx => hs x i c (Or.inr ⟨rfl, hx⟩)) ⟨a1, a2⟩
  congr 1
  rw [leftF_eq h.ib, leftF_eq h.ib]
  split
  · rw [perm_congr (q := prow z s' 0) (fun i a1 a2 => by unfold prow; rw [hp i (by omega)])]
    apply hn _ _ _ h2
    rcases Nat.lt_or_ge (l * z.b + i) ((c / z.ib + 1) * z.ib) with hlt | hge
    · rw [perm_fix (fun i a1 a2 => (prow_range (by omega)).1) hlt]; exact h1
    · exact (perm_range (fun i a1 a2 => prow_range (by omega)) hge h1).2
  · exact hn _ _ h1 h2

theorem leftT_free (size : Nat) : RaceFree size (leftT z : Nat → TTask PT (α × Nat)) :=
  rank0_free (by rintro r x i c (⟨h, _⟩ | ⟨h, _⟩) <;> exact h)

end

end Verif.Panel
